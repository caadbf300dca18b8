#!/usr/bin/env python3
"""Generates MANIFEST.json; theorems are in namespace DK2 unless given with a full name."""
import json
C = []
def c(p, st, th, note=""):
    C.append({"property": p, "status": st, "theorems": ["DK2." + t for t in th], "note": note})
c("C01","partial",["C01_contains_partial","C01_11_partial","C01_quiet_partial","C01_refuted"],
  "Full statement C01_Full is false of the code (reorganisation drops (1,1)): C01_refuted. Proved: exact for every pair but (1,1) on every history; exact condition for (1,1); everything on histories without reorganisation.")
c("C02","proved",["C02_insert_only"],"Every lawful tree implementation, thresholds over the reals, every n >= 2.")
c("C03","partial",["C03_quiet_partial","C03_lower_partial","C03_refuted"],"False after a reorganisation with empty buffer (C03_refuted); exact without reorganisation; never under-reports.")
c("C04","proved",["C04_add_present","C04_add_present_forced"],"The object is unchanged; the second theorem covers trees whose adj_forced has effects.")
c("C05","partial",["C05_quiet_partial","C05_general_partial","C05_refuted"],"Deleting an absent edge can trigger the reorganisation (C05_refuted).")
c("C06","partial",["C06_add","C06_del_partial","C06_del_refuted"],"add_edge half proved in full; del_edge half false for (1,1) (C06_del_refuted).")
c("C07","partial",["C07_sound_partial","C07_quiet_partial","C07_insert_only_partial","C07_refuted"],"Incomplete after a reorganisation above max_r (C07_refuted).")
c("C08","proved",["C08_neigh_it"],"Every history that returns (reorganisations included), every callback with any captured state.")
c("C12","partial",["C12_exact_partial","C12_no_erased_partial","C12_C13_insert_only_partial","C12_refuted"],"False after deletions from the buffer (C12_refuted); exact characterisation of the failing states.")
c("C13","partial",["C13_exact_partial","C13_clean_partial","C12_C13_insert_only_partial","C13_refuted"],"False after deletions (C13_refuted); exact characterisation of the failing states.")
c("C14","proved",["C14_order"],"Any two insertion sequences with the same set of edges.")
c("C15","partial",["C15_add_del","C15_del_add_partial","C15_del_add_refuted"],"add-then-del in full; del-then-add false for (1,1).")
c("C16","partial",["C16_partial","C16_neighbour_partial","C16_refuted"],"False: the counter drifts, (1,1) is dropped, neighbours may vanish (C16_refuted). Exact membership and count for every reorganisation (C16_partial), exact condition under which list_neighbour is complete, empty otherwise (C16_neighbour_partial).")
c("C17","proved",["C17_nodes"],"Every history that returns.")
c("C42","partial",["C42_general_partial","C42_insert_only_partial","C42_refuted"],"False below 8 vertices because MAXSZ(m,0) is not monotone there (C42_refuted); bound for every history (C42_general_partial), in full for insert-only graphs with n >= 8.")
c("C43","proved",["C43_add_any_forced"],"No assumption on what adj_forced does to the tree.")
c("C44","proved",["C44_one_place"],"Every history that returns, reorganisations included.")
c("C45","partial",["C45_partial","C45_exact_partial","C45_refuted"],"False: null dereference when reorganising with an empty buffer (C45_refuted). C45_exact_partial: exactly when the call fails; it is then undefined behaviour, and it returns in every other case.")
import os
d=os.path.join(os.path.dirname(__file__),"..")
exec(open(os.path.join(d,"tools","manifest_more.py")).read()) if os.path.exists(os.path.join(d,"tools","manifest_more.py")) else None
C.sort(key=lambda x:x["property"])
json.dump({"claims":C},open(os.path.join(d,"MANIFEST.json"),"w"),indent=1)
