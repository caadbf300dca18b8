import Verif.Tools
import Verif.PropsReaders
import Verif.Restart
import Mathlib.Data.List.TakeWhile
import Verif.Witness
import Verif.RealTab
/-!
# C105–C107 – the programs in `evaluation/`
-/

namespace DK2
namespace Tools
open DK
variable {K : K2Impl}

/-! ## Reading files -/

theorem getlines_line : ∀ (l acc rest : List Char), '\n' ∉ l →
    getlines acc (l ++ '\n' :: rest) = (acc.reverse ++ l) :: getlines [] rest := by
  intro l
  induction l with
  | nil => intro acc rest _; simp [getlines]
  | cons c l ih =>
    intro acc rest h
    have hc : c ≠ '\n' := fun hc => h (by simp [hc])
    rw [List.cons_append, getlines, if_neg hc, ih (c :: acc) rest (fun h' => h (by simp [h']))]
    simp

theorem getlines_textOf {ls : List (List Char)} (h : ∀ l ∈ ls, '\n' ∉ l) : getlines [] (textOf ls) = ls := by
  induction ls with
  | nil => rfl
  | cons l ls ih =>
    have e : textOf (l :: ls) = l ++ '\n' :: textOf ls := by simp [textOf]
    rw [e, getlines_line l [] _ (h l (by simp)), ih (fun l' h' => h l' (by simp [h']))]
    rfl

theorem split_ne_nil (d : Char) (l : List Char) : split d l ≠ [] := by
  cases l with
  | nil => simp [split]
  | cons c l =>
    rw [split]
    split
    · simp
    · split <;> simp

theorem split_length (d : Char) (l : List Char) : (split d l).length = l.count d + 1 := by
  induction l with
  | nil => rfl
  | cons c l ih =>
    rw [split]
    by_cases hc : c = d
    · subst hc; simp [ih]
    · rw [if_neg hc, List.count_cons_of_ne hc]
      cases h : split d l with
      | nil => exact absurd h (split_ne_nil d l)
      | cons t ts => rw [h] at ih; simpa using ih

theorem split_field {d : Char} : ∀ {t : List Char} (rest : List Char), d ∉ t → split d (t ++ d :: rest) = t :: split d rest := by
  intro t
  induction t with
  | nil => intro rest _; simp [split]
  | cons c t ih =>
    intro rest h
    have hc : c ≠ d := fun hc => h (by simp [hc])
    rw [List.cons_append, split, if_neg hc, ih rest (fun h' => h (by simp [h']))]

theorem split_last {d : Char} : ∀ {t : List Char}, d ∉ t → split d t = [t] := by
  intro t
  induction t with
  | nil => intro _; rfl
  | cons c t ih =>
    intro h
    have hc : c ≠ d := fun hc => h (by simp [hc])
    rw [split, if_neg hc, ih (fun h' => h (by simp [h']))]

theorem digit_plain {x : Nat} {c : Char} (hc : c.isDigit = false) : c ∉ Nat.toDigits 10 x := by
  intro h
  rw [Nat.isDigit_of_mem_toDigits (by decide) (by decide) h] at hc
  cases hc

theorem space_not_digit {c : Char} (h : c.isDigit = true) : space c = false := by
  have h1 : 48 ≤ c.toNat ∧ c.toNat ≤ 57 := by
    simp only [Char.isDigit, Bool.and_eq_true, decide_eq_true_eq] at h
    exact ⟨h.1, h.2⟩
  have hne : ∀ d : Char, d.toNat < 48 → c ≠ d := by rintro d hd rfl; omega
  simp only [space, Bool.or_eq_false_iff, decide_eq_false_iff_not]
  refine ⟨⟨⟨⟨⟨hne _ (by decide), hne _ (by decide)⟩, hne _ (by decide)⟩, hne _ (by decide)⟩, by omega⟩, by omega⟩

theorem value_digits (x : Nat) :
    ((Nat.toDigits 10 x).foldl (fun (a : Int) c => 10 * a + ((c.toNat : Int) - 48)) 0) = (x : Int) := by
  have hd : ∀ c ∈ Nat.toDigits 10 x, c.isDigit = true := fun c hc => Nat.isDigit_of_mem_toDigits (by decide) (by decide) hc
  have key : ∀ (l : List Char) (a : Nat), (∀ c ∈ l, c.isDigit = true) →
      l.foldl (fun (a : Int) c => 10 * a + ((c.toNat : Int) - 48)) (a : Int) = (Nat.ofDigitChars 10 l a : Nat) := by
    intro l
    induction l with
    | nil => intro a _; rfl
    | cons c l ih =>
      intro a h
      have hc := h c (by simp)
      have h1 : 48 ≤ c.toNat := by
        simp only [Char.isDigit, Bool.and_eq_true, decide_eq_true_eq] at hc
        exact hc.1
      rw [List.foldl_cons, Nat.ofDigitChars_cons, ← ih _ (fun c' h' => h c' (by simp [h']))]
      congr 1
      show 10 * (a : Int) + ((c.toNat : Int) - 48) = ((10 * a + (c.toNat - 48) : Nat) : Int)
      omega
  have := key _ 0 hd
  rw [Nat.ofDigitChars_ten_toDigits] at this
  exact_mod_cast this

theorem takeWhile_digits (x : Nat) : (Nat.toDigits 10 x).takeWhile Char.isDigit = Nat.toDigits 10 x := by
  rw [List.takeWhile_eq_self_iff]
  exact fun c hc => Nat.isDigit_of_mem_toDigits (by decide) (by decide) hc

/-- What `stoi` makes of a decimal number. -/
theorem stoi_toDigits (x : Nat) :
    stoi (Nat.toDigits 10 x) = if -2 ^ 31 ≤ (x : Int) ∧ (x : Int) < 2 ^ 31 then .ok (x : Int) else .throws := by
  have hd : ∀ c ∈ Nat.toDigits 10 x, c.isDigit = true := fun c hc => Nat.isDigit_of_mem_toDigits (by decide) (by decide) hc
  obtain ⟨c, cs, hcs⟩ : ∃ c cs, Nat.toDigits 10 x = c :: cs := by
    cases h : Nat.toDigits 10 x with
    | nil => exact absurd h Nat.toDigits_ne_nil
    | cons c cs => exact ⟨c, cs, rfl⟩
  have hc : c.isDigit = true := hd c (by simp [hcs])
  have h1 : (Nat.toDigits 10 x).dropWhile space = Nat.toDigits 10 x := by
    rw [hcs, List.dropWhile_cons_of_neg (by simp [space_not_digit hc])]
  have h2 : (Nat.toDigits 10 x).head? ≠ some '-' := by
    rw [hcs]; simp; rintro rfl; exact absurd hc (by decide)
  have h3 : (Nat.toDigits 10 x).head? ≠ some '+' := by
    rw [hcs]; simp; rintro rfl; exact absurd hc (by decide)
  unfold stoi
  simp only [h1, h2, h3, or_self, if_false, takeWhile_digits, Nat.toDigits_ne_nil, value_digits]

/-- `stoi` reads decimal numbers … -/
theorem stoi_digits {x : Nat} (hx : x < 2 ^ 31) : stoi (Nat.toDigits 10 x) = .ok (x : Int) := by
  rw [stoi_toDigits, if_pos (by omega)]

/-- … that are an `int` … -/
theorem stoi_digits_big {x : Nat} (hx : 2 ^ 31 ≤ x) : stoi (Nat.toDigits 10 x) = .throws := by
  rw [stoi_toDigits, if_neg (by omega)]

/-- … and negative ones. -/
theorem stoi_negative {x : Nat} (hx : x ≤ 2 ^ 31) : stoi ('-' :: Nat.toDigits 10 x) = .ok (-(x : Int)) := by
  have h1 : ('-' :: Nat.toDigits 10 x).dropWhile space = '-' :: Nat.toDigits 10 x := by
    rw [List.dropWhile_cons_of_neg (by decide)]
  unfold stoi
  simp only [h1, List.head?_cons, true_or, if_true, List.tail_cons, takeWhile_digits, Nat.toDigits_ne_nil, if_false, value_digits]
  rw [if_pos (by omega)]

theorem vertex_digits {x : Nat} (hx : x < 2 ^ 31) : vertex (Nat.toDigits 10 x) = .ok x := by
  unfold vertex
  rw [stoi_digits hx, Res.ok_bind]
  congr 1
  omega

theorem split_line {r : Record} (h : Plain r.mark) :
    split ' ' r.line = [r.mark, Nat.toDigits 10 r.e.1, Nat.toDigits 10 r.e.2] := by
  unfold Record.line
  rw [split_field _ h.1, split_field _ (digit_plain (by decide)), split_last (digit_plain (by decide))]

theorem edgeFields_line {n : Nat} {r : Record} (hn : n ≤ 9999999) (h : Plain r.mark) (hr : InRange n r.e) :
    edgeFields (split ' ' r.line) = .ok r.e := by
  rw [split_line h]
  unfold edgeFields
  have h1 : r.e.1 < 2 ^ 31 := lt_of_lt_of_le hr.1 (by omega)
  have h2 : r.e.2 < 2 ^ 31 := lt_of_lt_of_le hr.2 (by omega)
  show (vertex _ >>= fun x => vertex _ >>= fun y => Res.ok (x, y)) = _
  rw [vertex_digits h1, Res.ok_bind, vertex_digits h2, Res.ok_bind]

theorem no_newline {r : Record} (h : Plain r.mark) : '\n' ∉ r.line := by
  unfold Record.line
  intro hm
  simp only [List.mem_append, List.mem_cons] at hm
  rcases hm with hm | hm | hm | hm | hm
  · exact h.2.2 hm
  · cases hm
  · exact digit_plain (by decide) hm
  · cases hm
  · exact digit_plain (by decide) hm

theorem getlines_records {n : Nat} {rs : List Record} (h : WellFormed n rs) :
    getlines [] (textOf (rs.map Record.line)) = rs.map Record.line :=
  getlines_textOf (by
    intro l hl
    obtain ⟨r, hr, rfl⟩ := List.mem_map.1 hl
    exact no_newline (h r hr).1)

theorem wf_tail {n : Nat} {r : Record} {rs : List Record} (h : WellFormed n (r :: rs)) : WellFormed n rs :=
  fun r' h' => h r' (by simp [h'])

/-- `build_edges` reads the edges the dataset describes. -/
theorem buildEdges_records {n : Nat} (hn : n ≤ 9999999) : ∀ {rs : List Record}, WellFormed n rs →
    buildEdges (rs.map Record.line) = .ok (edgesMarked rs) := by
  intro rs
  induction rs with
  | nil => intro _; rfl
  | cons r rs ih =>
    intro h
    obtain ⟨h1, h2⟩ := h r (by simp)
    rw [List.map_cons, buildEdges, edgeFields_line hn h1 h2, Res.ok_bind, ih (wf_tail h), split_line h1]
    show Res.ok _ = _
    unfold edgesMarked
    by_cases hm : r.mark = ['a'] <;> simp [hm]

theorem createLoop_records {n : Nat} (hn : n ≤ 9999999) (S : Sizing) : ∀ {rs : List Record} (g : DK K), WellFormed n rs →
    createLoop S g (rs.map Record.line) = DK.runFrom S g ((edgesMarked rs).map Op.add) := by
  intro rs
  induction rs with
  | nil => intro g _; rfl
  | cons r rs ih =>
    intro g h
    obtain ⟨h1, h2⟩ := h r (by simp)
    rw [List.map_cons, createLoop, edgeFields_line hn h1 h2, Res.ok_bind, split_line h1]
    show (if r.mark = ['a'] then _ else _) = _
    by_cases hm : r.mark = ['a']
    · rw [if_pos hm]
      have e : edgesMarked (r :: rs) = r.e :: edgesMarked rs := by simp [edgesMarked, hm]
      rw [e]
      show _ = (g.addEdge S r.e >>= fun g => DK.runFrom S g _)
      congr 1
      funext g'
      exact ih g' (wf_tail h)
    · rw [if_neg hm]
      have e : edgesMarked (r :: rs) = edgesMarked rs := by simp [edgesMarked, hm]
      rw [e]
      exact ih g (wf_tail h)

theorem addAll_records {n : Nat} (hn : n ≤ 9999999) (S : Sizing) : ∀ {rs : List Record} (g : DK K), WellFormed n rs →
    addAll S g (rs.map Record.line) = DK.runFrom S g ((rs.map Record.e).map Op.add) := by
  intro rs
  induction rs with
  | nil => intro g _; rfl
  | cons r rs ih =>
    intro g h
    obtain ⟨h1, h2⟩ := h r (by simp)
    rw [List.map_cons, addAll, edgeFields_line hn h1 h2, Res.ok_bind]
    show _ = (g.addEdge S r.e >>= fun g => DK.runFrom S g _)
    congr 1
    funext g'
    exact ih g' (wf_tail h)

theorem deleteLoop_records {n : Nat} (hn : n ≤ 9999999) (S : Sizing) : ∀ {rs : List Record} (g : DK K), WellFormed n rs →
    deleteLoop S g (rs.map Record.line) = DK.runFrom S g ((rs.map Record.e).map Op.del) := by
  intro rs
  induction rs with
  | nil => intro g _; rfl
  | cons r rs ih =>
    intro g h
    obtain ⟨h1, h2⟩ := h r (by simp)
    rw [List.map_cons, deleteLoop, edgeFields_line hn h1 h2, Res.ok_bind]
    show _ = (g.delEdge S r.e >>= fun g => DK.runFrom S g _)
    congr 1
    funext g'
    exact ih g' (wf_tail h)

theorem edgesMarked_inRange {n : Nat} {rs : List Record} (h : WellFormed n rs) : ∀ e ∈ edgesMarked rs, InRange n e := by
  intro e he
  obtain ⟨r, hr, rfl⟩ := List.mem_map.1 he
  exact (h r (List.mem_filter.1 hr).1).2

/-! ## C105 -/

theorem askLoop_ok {α : Type} {g : DK K} {A : SGraph} (hg : g.AnswersAll A) {parse : List Char → Res Query} {line : α → List Char}
    {q : α → Query} : ∀ {xs : List α}, (∀ x ∈ xs, parse (line x) = .ok (q x) ∧ (q x).Legal A.n) →
    ∃ as, askLoop parse g (xs.map line) = .ok as ∧ List.Forall₂ (fun x a => (q x).Right A a) xs as := by
  intro xs
  induction xs with
  | nil => intro _; exact ⟨[], rfl, .nil⟩
  | cons x xs ih =>
    intro h
    obtain ⟨h1, h2⟩ := h x (by simp)
    obtain ⟨r, h3, h4⟩ := hg (q x) h2
    obtain ⟨as, h5, h6⟩ := ih (fun y hy => h y (by simp [hy]))
    refine ⟨r :: as, ?_, .cons h4 h6⟩
    rw [List.map_cons, askLoop, h1, Res.ok_bind, h3, Res.ok_bind, h5, Res.ok_bind]

/-- What the programs that load a folder show: `contains`, `list`, `neighbor_iterator` and `edge_iterator` answer for the graph `A`. -/
structure FolderShows (S : Sizing) (d : Dir K) (A : SGraph) : Prop where
  contains : ∀ rs : List Record, WellFormed A.n rs → ∃ as, Tools.contains S d (textOf (rs.map Record.line)) = .ok as ∧
    List.Forall₂ (fun r a => ∃ b, a = Ans.bool b ∧ (b = true ↔ r.e ∈ A.E)) rs as
  list : ∀ qs : List (List Char × Nat), (∀ q ∈ qs, Plain q.1 ∧ q.2 < A.n) → ∃ as, Tools.list S d (textOf (qs.map vertexLine)) = .ok as ∧
    List.Forall₂ (fun q a => ∃ l, a = Ans.nodes l ∧ l.Nodup ∧ ∀ y, y ∈ l ↔ (q.2, y) ∈ A.E) qs as
  loop : ∀ qs : List (List Char × Nat), (∀ q ∈ qs, Plain q.1 ∧ q.2 < A.n) →
    ∃ as, neighborIterator S d (textOf (qs.map vertexLine)) = .ok as ∧
    List.Forall₂ (fun q a => ∃ l, a = Ans.nodes l ∧ l.Nodup ∧ ∀ y, y ∈ l ↔ (q.2, y) ∈ A.E) qs as
  arcs : Tools.arcs S d = .ok A.E.card

theorem no_newline_vertex {q : List Char × Nat} (h : Plain q.1) : '\n' ∉ vertexLine q := by
  unfold vertexLine
  intro hm
  simp only [List.mem_append, List.mem_cons] at hm
  rcases hm with hm | hm | hm
  · exact h.2.2 hm
  · cases hm
  · exact digit_plain (by decide) hm

theorem vertexField_line {n : Nat} (hn : n ≤ 9999999) {q : List Char × Nat} (h : Plain q.1) (hq : q.2 < n) :
    vertexField (vertexLine q) = .ok q.2 := by
  unfold vertexField vertexLine
  rw [split_field _ h.2.1, split_last (digit_plain (by decide))]
  exact vertex_digits (by omega)

theorem Forall2.imp' {α β : Type} {R Q : α → β → Prop} {l : List α} {m : List β} (h : List.Forall₂ R l m) (hi : ∀ a b, R a b → Q a b) :
    List.Forall₂ Q l m := by
  induction h with
  | nil => exact .nil
  | cons h _ ih => exact .cons (hi _ _ h) ih

theorem folderShows_of {S : Sizing} {d : Dir K} {A : SGraph} {g : DK K} (hn : A.n ≤ 9999999) (hl : (DK.blank K).load S d = .ok g)
    (hg : g.AnswersAll A) : FolderShows S d A where
  contains := by
    intro rs h
    obtain ⟨as, h1, h2⟩ := askLoop_ok hg (parse := fun l => do let e ← edgeFields (split ' ' l); .ok (.contains e)) (line := Record.line)
      (q := fun r => .contains r.e) (xs := rs)
      (fun r hr => ⟨by simp only [edgeFields_line hn (h r hr).1 (h r hr).2, Res.ok_bind], (h r hr).2⟩)
    refine ⟨as, ?_, Forall2.imp' h2 fun r a ha => ?_⟩
    · unfold Tools.contains open_
      rw [hl, Res.ok_bind, getlines_records h]
      exact h1
    · cases a with
      | bool b => exact ⟨b, rfl, ha⟩
      | _ => exact ha.elim
  list := by
    intro qs h
    obtain ⟨as, h1, h2⟩ := askLoop_ok hg (parse := fun l => do let x ← vertexField l; .ok (.neighbours x)) (line := vertexLine)
      (q := fun r => .neighbours r.2) (xs := qs)
      (fun q hq => ⟨by simp only [vertexField_line hn (h q hq).1 (h q hq).2, Res.ok_bind], (h q hq).2⟩)
    refine ⟨as, ?_, Forall2.imp' h2 fun r a ha => ?_⟩
    · unfold Tools.list open_
      rw [hl, Res.ok_bind, getlines_textOf (by
        intro l hl
        obtain ⟨q, hq, rfl⟩ := List.mem_map.1 hl
        exact no_newline_vertex (h q hq).1)]
      exact h1
    · cases a with
      | nodes l => exact ⟨l, rfl, ha⟩
      | _ => exact ha.elim
  loop := by
    intro qs h
    obtain ⟨as, h1, h2⟩ := askLoop_ok hg (parse := fun l => do let x ← vertexField l; .ok (.neighbourLoop x)) (line := vertexLine)
      (q := fun r => .neighbourLoop r.2) (xs := qs)
      (fun q hq => ⟨by simp only [vertexField_line hn (h q hq).1 (h q hq).2, Res.ok_bind], (h q hq).2⟩)
    refine ⟨as, ?_, Forall2.imp' h2 fun r a ha => ?_⟩
    · unfold neighborIterator open_
      rw [hl, Res.ok_bind, getlines_textOf (by
        intro l hl
        obtain ⟨q, hq, rfl⟩ := List.mem_map.1 hl
        exact no_newline_vertex (h q hq).1)]
      exact h1
    · cases a with
      | nodes l => exact ⟨l, rfl, ha⟩
      | _ => exact ha.elim
  arcs := by
    obtain ⟨r, h1, h2⟩ := hg .edgeLoop trivial
    change (g.iface.edges >>= _) = _ at h1
    rw [Res.bind_eq_ok] at h1
    obtain ⟨es, h3, h4⟩ := h1
    cases h4
    unfold Tools.arcs open_
    rw [hl, Res.ok_bind, h3, Res.ok_bind]
    congr 1
    have h2 : es.Nodup ∧ ∀ e, e ∈ es ↔ e ∈ A.E := h2
    rw [← List.toFinset_card_of_nodup h2.1]
    congr 1
    ext e
    rw [List.mem_toFinset, h2.2]

/-- C105: for every well-formed dataset `create` writes a folder, and the programs that load it show exactly the edges of the
dataset. -/
theorem C105_create (hK : K.Lawful) (hF : K.ForcedPure) {n : Nat} (h2 : 2 ≤ n) (hn : n ≤ 9999999) {rs : List Record} (h : WellFormed n rs) :
    ∃ d, create K realSizing n (textOf (rs.map Record.line)) (Dir.empty K) = .ok d ∧
      FolderShows realSizing d ⟨n, (edgesMarked rs).toFinset⟩ := by
  obtain ⟨g, h1, _⟩ := C02_insert_only hK hF (n := n) h2 (edgesMarked_inRange h)
  have hr : DK.run K realSizing n ((edgesMarked rs).map Op.add) = .ok g := h1
  have hr' := hr
  unfold DK.run DK.create at hr'
  rw [if_neg (by omega), Res.ok_bind] at hr'
  have hh := Holds.adds hK hF realSizing_top _ (Holds.init (K := K) realSizing h2 hn) (edgesMarked_inRange h) hr'
  have e : (∅ : Finset Edge) ∪ (edgesMarked rs).toFinset = (edgesMarked rs).toFinset := by simp
  rw [e] at hh
  have hs := hh.save (Dir.empty K)
  obtain ⟨g', h3, h4⟩ := hh.load realSizing hs
  refine ⟨_, ?_, folderShows_of hn h3 (DK.answersAll_of (h4.faithful hK) h4.nv h4.card)⟩
  unfold Tools.create
  rw [getlines_records h]
  unfold DK.run at hr
  rw [Res.bind_eq_ok] at hr
  obtain ⟨g0, c1, c2⟩ := hr
  rw [c1, Res.ok_bind, createLoop_records hn _ _ h, c2, Res.ok_bind]
  exact hs

/-- C105: however often a program is run. -/
theorem C105_runs {β : Type} (k : Nat) {run : Res β} {b : β} (h : run = .ok b) : repeated k run = .ok (List.replicate k b) := by
  unfold repeated
  subst h
  induction k with
  | zero => rfl
  | succ k ih =>
    rw [List.replicate_succ, List.mapM_cons, Res.ok_bind]
    show ((List.replicate k ()).mapM _ >>= _) = _
    rw [ih]; rfl

/-- C105: the edges `build_edges` hands to each of the classes. -/
theorem C105_build_edges {n : Nat} (hn : n ≤ 9999999) {rs : List Record} (h : WellFormed n rs) :
    buildEdges (getlines [] (textOf (rs.map Record.line))) = .ok (edgesMarked rs) := by
  rw [getlines_records h, buildEdges_records hn h]

/-- `add_mean` builds another graph: it also inserts the edges that are not marked `a`. -/
theorem C105_add_mean (hK : K.Lawful) (hF : K.ForcedPure) {n : Nat} (h2 : 2 ≤ n) (hn : n ≤ 9999999) {rs : List Record}
    (h : WellFormed n rs) : ∃ g, addMean K realSizing n (textOf (rs.map Record.line)) = .ok g ∧
      g.AnswersAll ⟨n, (rs.map Record.e).toFinset⟩ := by
  have hes : ∀ e ∈ rs.map Record.e, InRange n e := by
    intro e he
    obtain ⟨r, hr, rfl⟩ := List.mem_map.1 he
    exact (h r hr).2
  obtain ⟨g, h1, _⟩ := C02_insert_only hK hF (n := n) h2 hes
  have hr : DK.run K realSizing n ((rs.map Record.e).map Op.add) = .ok g := h1
  refine ⟨g, ?_, inserts_answer hK hF realSizing_top h2 hn hes hr⟩
  unfold addMean
  rw [getlines_records h]
  unfold DK.run at hr
  rw [Res.bind_eq_ok] at hr
  obtain ⟨g0, c1, c2⟩ := hr
  rw [c1, Res.ok_bind, addAll_records hn _ _ h, c2]

/-- A dataset with two edges marked `a` and one marked `d`. -/
def rs0 : List Record := [⟨['a'], (0, 1)⟩, ⟨['d'], (1, 2)⟩, ⟨['a'], (2, 2)⟩]

example : WellFormed 3 rs0 := by decide

/-- The file `rs0` stands for. -/
example : textOf (rs0.map Record.line) = "a 0 1\nd 1 2\na 2 2\n".toList := by decide

example : ∃ d, create refK2 realSizing 3 (textOf (rs0.map Record.line)) (Dir.empty refK2) = .ok d ∧
    FolderShows realSizing d ⟨3, {(0, 1), (2, 2)}⟩ :=
  C105_create refK2_lawful refK2_forcedPure (by decide) (by decide) (by decide)

example : ∃ g, addMean refK2 realSizing 3 (textOf (rs0.map Record.line)) = .ok g ∧ g.AnswersAll ⟨3, {(0, 1), (1, 2), (2, 2)}⟩ :=
  C105_add_mean refK2_lawful refK2_forcedPure (by decide) (by decide) (by decide)

/-! ## C106 -/

/-- The claim: `create` and then `delete` end with the edges of the dataset that the second file does not list. -/
def C106_Full : Prop := ∀ (K : K2Impl), K.Lawful → K.ForcedPure → K.MarksOne → ∀ (n : Nat), 2 ≤ n → n ≤ 9999999 →
  ∀ rs ds : List Record, WellFormed n rs → WellFormed n ds →
  ∃ d g, create K realSizing n (textOf (rs.map Record.line)) (Dir.empty K) = .ok d ∧
    Tools.delete realSizing d (textOf (ds.map Record.line)) = .ok g ∧
    Shows g n (fun e => e ∈ edgesMarked rs ∧ e ∉ ds.map Record.e)
      ((edgesMarked rs).toFinset \ (ds.map Record.e).toFinset).card

/-- Deletions after a history in which deletions are rare, as long as they stay rare. -/
theorem prune_from (hK : K.Lawful) (hF : K.ForcedPure) (hM : K.MarksOne) {S : Sizing} {X : Nat} (hS : S.Calibrated X) {n : Nat} :
    ∀ {ds : List Edge} {g : DK K} {w : Win}, Few n g w → (∀ e ∈ ds, InRange n e) → ((ds.map Op.del).foldl Win.step w).Rare →
      w.present.length ≤ X → ∃ g', DK.runFrom S g (ds.map Op.del) = .ok g' ∧ Few n g' ((ds.map Op.del).foldl Win.step w) := by
  intro ds
  induction ds with
  | nil => intro g w h _ _ _; exact ⟨g, rfl, h⟩
  | cons e ds ih =>
    intro g w h hr hrare hsz
    have hr1 : (w.step (.del e)).Rare := by
      obtain ⟨h2, h3⟩ := prune_counts (w.step (.del e)) ds
      have hrare : ((ds.map Op.del).foldl Win.step (w.step (.del e))).Rare := hrare
      unfold Win.Rare at hrare ⊢
      omega
    obtain ⟨g1, a1, a2⟩ := h.del hK hF hM hS (hr e (by simp)) hr1 hsz
    have hsz1 : (w.step (.del e)).present.length ≤ X := by
      simp only [Win.step]
      split
      · exact le_trans List.length_erase_le hsz
      · exact hsz
    obtain ⟨g2, b1, b2⟩ := ih a2 (fun e' h' => hr e' (by simp [h'])) hrare hsz1
    refine ⟨g2, ?_, b2⟩
    show (g.delEdge S e >>= fun g => DK.runFrom S g _) = _
    rw [a1, Res.ok_bind]
    exact b1

/-- The window after building with `es` and deleting `ds`. -/
theorem build_prune_win (es ds : List Edge) :
    ((ds.map Op.del).foldl Win.step (Win.run (es.map Op.add)) = Win.run (es.map Op.add ++ ds.map Op.del)) ∧
    (Win.run (es.map Op.add ++ ds.map Op.del)).present.length = (es.toFinset \ ds.toFinset).card ∧
    (Win.run (es.map Op.add ++ ds.map Op.del)).dels = (es.toFinset ∩ ds.toFinset).card := by
  obtain ⟨p1, p2⟩ := Win.present_spec (es.map Op.add ++ ds.map Op.del)
  have hcard : (Win.run (es.map Op.add ++ ds.map Op.del)).present.length = (es.toFinset \ ds.toFinset).card := by
    rw [← List.toFinset_card_of_nodup p1]
    congr 1
    ext e
    rw [List.mem_toFinset, p2, mem_build_prune]
    simp
  obtain ⟨q1, q2⟩ := Win.present_spec (es.map Op.add)
  have hcard0 : (Win.run (es.map Op.add)).present.length = es.toFinset.card := by
    rw [← List.toFinset_card_of_nodup q1]
    congr 1
    ext e
    have := mem_build_prune es [] e
    simp only [List.map_nil, List.append_nil, List.not_mem_nil, not_false_eq_true, and_true] at this
    rw [List.mem_toFinset, q2, this, List.mem_toFinset]
  have hdels0 : (Win.run (es.map Op.add)).dels = 0 := by
    clear * -
    induction es using List.reverseRecOn with
    | nil => rfl
    | append_singleton es e ih =>
      rw [List.map_append]
      simp only [List.map_cons, List.map_nil]
      rw [Win.run_snoc]
      simp only [Win.step]
      split <;> exact ih
  have hcnt := (prune_counts (Win.run (es.map Op.add)) ds).2
  have hrun : (ds.map Op.del).foldl Win.step (Win.run (es.map Op.add)) = Win.run (es.map Op.add ++ ds.map Op.del) := by
    simp [Win.run]
  refine ⟨hrun, hcard, ?_⟩
  rw [hrun, hcard, hcard0, hdels0] at hcnt
  have hsplit := Finset.card_inter_add_card_sdiff es.toFinset ds.toFinset
  omega

/-- Distinct edges of a graph with `n` vertices. -/
theorem card_edges {n : Nat} (hn : n ≤ 9999999) {es : List Edge} (h : ∀ e ∈ es, InRange n e) : es.toFinset.card ≤ 2 ^ 64 := by
  have hs : es.toFinset ⊆ Finset.range n ×ˢ Finset.range n := by
    intro e he
    have := h e (List.mem_toFinset.1 he)
    simp only [Finset.mem_product, Finset.mem_range]
    exact this
  have hc := Finset.card_le_card hs
  rw [Finset.card_product, Finset.card_range] at hc
  have : n * n ≤ 9999999 * 9999999 := Nat.mul_le_mul hn hn
  omega

/-- C106 as long as at most one in seven of the edges of the dataset is listed: `delete` returns, and `contains`, `list_neighbour` and
the counters of the graph it ends with show the other edges.  Missing: longer lists. -/
theorem C106_prune_partial (hK : K.Lawful) (hF : K.ForcedPure) (hM : K.MarksOne) {n : Nat} (h2 : 2 ≤ n) (hn : n ≤ 9999999)
    {rs ds : List Record} (h : WellFormed n rs) (hd : WellFormed n ds)
    (hfew : 6 * ((edgesMarked rs).toFinset ∩ (ds.map Record.e).toFinset).card ≤
      ((edgesMarked rs).toFinset \ (ds.map Record.e).toFinset).card) :
    ∃ d g, create K realSizing n (textOf (rs.map Record.line)) (Dir.empty K) = .ok d ∧
      Tools.delete realSizing d (textOf (ds.map Record.line)) = .ok g ∧
      Shows g n (fun e => e ∈ edgesMarked rs ∧ e ∉ ds.map Record.e)
        ((edgesMarked rs).toFinset \ (ds.map Record.e).toFinset).card := by
  have hdr : ∀ e ∈ ds.map Record.e, InRange n e := by
    intro e he
    obtain ⟨r, hr, rfl⟩ := List.mem_map.1 he
    exact (hd r hr).2
  obtain ⟨hw, hc⟩ := build_prune_win (edgesMarked rs) (ds.map Record.e)
  have hsz := card_edges hn (edgesMarked_inRange h)
  have hB : ∀ k, k ≤ 2 ^ 64 → realSizing.maxsz (max n k) 0 ≤
      (Finset.range (2 ^ 64 + 1)).sup (fun k => realSizing.maxsz (max n k) 0) := by
    intro k hk
    exact Finset.le_sup (f := fun k => realSizing.maxsz (max n k) 0) (Finset.mem_range.2 (Nat.lt_succ_of_le hk))
  obtain ⟨g, h1, f1, c1, l1⟩ := settled_run hK hF hM realSizing_calibrated h2 (le_refl _) hB
    (settled_inserts (B := (Finset.range (2 ^ 64 + 1)).sup (fun k => realSizing.maxsz (max n k) 0)) (edgesMarked_inRange h) hsz)
  obtain ⟨d, g0, s1, s2, s3⟩ := restart_ok realSizing f1.ex.inv.toWInv f1.ex.above c1.c0m
  have hrare : (((ds.map Record.e).map Op.del).foldl Win.step (Win.run ((edgesMarked rs).map Op.add))).Rare := by
    rw [hw]
    have hsplit := Finset.card_inter_add_card_sdiff (edgesMarked rs).toFinset (ds.map Record.e).toFinset
    unfold Win.Rare
    omega
  obtain ⟨g', r1, r2⟩ := prune_from hK hF hM realSizing_calibrated (s3.few f1) hdr hrare l1
  refine ⟨d, g', ?_, ?_, ?_⟩
  · unfold Tools.create
    rw [getlines_records h]
    unfold DK.run at h1
    rw [Res.bind_eq_ok] at h1
    obtain ⟨gi, e1, e2⟩ := h1
    rw [e1, Res.ok_bind, createLoop_records hn _ _ h, e2, Res.ok_bind]
    exact s1
  · unfold Tools.delete open_
    rw [s2, Res.ok_bind, getlines_records hd, deleteLoop_records hn _ _ hd]
    exact r1
  · rw [hw] at r2
    have hs := r2.shows hK
    have e : specMem ((edgesMarked rs).map Op.add ++ (ds.map Record.e).map Op.del) =
        fun e => e ∈ edgesMarked rs ∧ e ∉ ds.map Record.e := by
      funext e; exact propext (mem_build_prune _ _ e)
    rw [e] at hs
    rw [← hc.1]
    exact hs

/-- Three edges, the last one `(1,1)`, and a list of the other two. -/
def rsNull : List Record := [⟨['a'], (1, 2)⟩, ⟨['a'], (0, 1)⟩, ⟨['a'], (1, 1)⟩]
def dsNull : List Record := [⟨['d'], (1, 2)⟩, ⟨['d'], (0, 1)⟩]

/-- C106 is false: on the files `rsNull` and `dsNull` the program `delete` has undefined behaviour. -/
theorem C106_refuted : ¬ C106_Full := by
  intro h
  obtain ⟨d, g, h1, h2, _⟩ := h refK2 refK2_lawful refK2_forcedPure refK2_marksOne 3 (by decide) (by decide) rsNull dsNull
    (by decide) (by decide)
  have hx : DK.check (Tools.create refK2 hybSizing 3 (textOf (rsNull.map Record.line)) (Dir.empty refK2)) (fun d =>
      match Tools.delete hybSizing d (textOf (dsNull.map Record.line)) with | .ub => true | _ => false) = true := by
    decide +kernel
  obtain ⟨d', h3, h4⟩ := DK.check_iff.1 hx
  rw [realSizing_eq_hyb] at h1 h2
  rw [h1] at h3
  cases h3
  rw [h2] at h4
  cases h4

/-- Seven edges, one of them listed for deletion. -/
def rs7 : List Record := [⟨['a'], (0, 1)⟩, ⟨['a'], (1, 1)⟩, ⟨['a'], (2, 1)⟩, ⟨['a'], (0, 0)⟩, ⟨['a'], (2, 2)⟩, ⟨['a'], (1, 0)⟩, ⟨['a'], (2, 0)⟩]

example : ∃ d g, create refK2 realSizing 3 (textOf (rs7.map Record.line)) (Dir.empty refK2) = .ok d ∧
    Tools.delete realSizing d (textOf ([⟨['d'], (2, 1)⟩].map Record.line)) = .ok g ∧
    Shows g 3 (fun e => e ∈ edgesMarked rs7 ∧ e ∉ [(2, 1)]) 6 :=
  C106_prune_partial (rs := rs7) (ds := [⟨['d'], (2, 1)⟩]) refK2_lawful refK2_forcedPure refK2_marksOne (by decide) (by decide)
    (by decide) (by decide) (by decide)

/-! ## C107 -/

/-- The claim: whatever the file, reading it ends with edges or with an exception. -/
def C107_Full : Prop := ∀ text : List Char, (∃ es, buildEdges (getlines [] text) = .ok es) ∨ buildEdges (getlines [] text) = .throws

theorem stoi_total (s : List Char) : (∃ v, stoi s = .ok v ∧ -2 ^ 31 ≤ v ∧ v < 2 ^ 31) ∨ stoi s = .throws := by
  have key : ∀ (ds : List Char) (v : Int),
      (∃ w, (if ds = [] then Res.throws else if -2 ^ 31 ≤ v ∧ v < 2 ^ 31 then .ok v else .throws) = Res.ok w ∧ -2 ^ 31 ≤ w ∧ w < 2 ^ 31) ∨
      (if ds = [] then Res.throws else if -2 ^ 31 ≤ v ∧ v < 2 ^ 31 then Res.ok v else .throws) = .throws := by
    intro ds v
    by_cases h1 : ds = []
    · rw [if_pos h1]; exact Or.inr rfl
    · rw [if_neg h1]
      by_cases h2 : -2 ^ 31 ≤ v ∧ v < 2 ^ 31
      · rw [if_pos h2]; exact Or.inl ⟨v, rfl, h2⟩
      · rw [if_neg h2]; exact Or.inr rfl
  exact key _ _

theorem vertex_total (s : List Char) : (∃ x, vertex s = .ok x ∧ x < 2 ^ 32) ∨ vertex s = .throws := by
  unfold vertex
  rcases stoi_total s with ⟨v, h, _⟩ | h
  · rw [h, Res.ok_bind]
    exact Or.inl ⟨_, rfl, by omega⟩
  · rw [h]; exact Or.inr rfl

theorem edgeFields_total {ts : List (List Char)} (h : 3 ≤ ts.length) :
    (∃ e, edgeFields ts = .ok e ∧ e.1 < 2 ^ 32 ∧ e.2 < 2 ^ 32) ∨ edgeFields ts = .throws := by
  obtain ⟨m, a, b, rest, rfl⟩ : ∃ m a b rest, ts = m :: a :: b :: rest := by
    match ts, h with
    | m :: a :: b :: rest, _ => exact ⟨m, a, b, rest, rfl⟩
  unfold edgeFields
  show (∃ e, (vertex a >>= fun x => vertex b >>= fun y => Res.ok (x, y)) = .ok e ∧ _) ∨
    (vertex a >>= fun x => vertex b >>= fun y => Res.ok (x, y)) = .throws
  rcases vertex_total a with ⟨x, hx, hx'⟩ | hx
  · rcases vertex_total b with ⟨y, hy, hy'⟩ | hy
    · rw [hx, hy]; exact Or.inl ⟨_, rfl, hx', hy'⟩
    · rw [hx, hy]; exact Or.inr rfl
  · rw [hx]; exact Or.inr rfl

/-- C107 for files all of whose lines have at least two blanks in them.  Missing: lines with fewer, on which the program reads past
the end of the vector of fields. -/
theorem C107_fields_partial (text : List Char) (h : ∀ l ∈ getlines [] text, 2 ≤ l.count ' ') :
    (∃ es, buildEdges (getlines [] text) = .ok es ∧ ∀ e ∈ es, e.1 < 2 ^ 32 ∧ e.2 < 2 ^ 32) ∨
      buildEdges (getlines [] text) = .throws := by
  revert h
  generalize getlines [] text = ls
  intro h
  induction ls with
  | nil => exact Or.inl ⟨[], rfl, by simp⟩
  | cons l ls ih =>
    have hl : 3 ≤ (split ' ' l).length := by rw [split_length]; have := h l (by simp); omega
    rw [buildEdges]
    rcases edgeFields_total hl with ⟨e, he, he'⟩ | he
    · rw [he, Res.ok_bind]
      obtain ⟨m, ts, hm⟩ : ∃ m ts, split ' ' l = m :: ts := by
        cases hh : split ' ' l with
        | nil => exact absurd hh (split_ne_nil _ _)
        | cons m ts => exact ⟨m, ts, rfl⟩
      rw [hm]
      show (∃ es, (buildEdges ls >>= fun es => Res.ok (if m = ['a'] then e :: es else es)) = .ok es ∧ _) ∨
        (buildEdges ls >>= fun es => Res.ok (if m = ['a'] then e :: es else es)) = .throws
      rcases ih (fun l' h' => h l' (by simp [h'])) with ⟨es, h1, h2⟩ | h1
      · rw [h1]
        refine Or.inl ⟨_, rfl, ?_⟩
        intro e' h'
        split at h'
        · rcases List.mem_cons.1 h' with rfl | h'
          · exact he'
          · exact h2 e' h'
        · exact h2 e' h'
      · rw [h1]; exact Or.inr rfl
    · rw [he]; exact Or.inr rfl

theorem edgeFields_ub (l : List Char) : edgeFields (split ' ' l) = .ub ↔
    l.count ' ' = 0 ∨ l.count ' ' = 1 ∧ ∃ a x, (split ' ' l)[1]? = some a ∧ vertex a = .ok x := by
  have hlen := split_length ' ' l
  match hs : split ' ' l with
  | [] => rw [hs] at hlen; simp at hlen
  | [m] =>
    rw [hs] at hlen
    have h0 : l.count ' ' = 0 := by simp at hlen; omega
    exact iff_of_true rfl (Or.inl h0)
  | [m, a] =>
    rw [hs] at hlen
    have h0 : l.count ' ' = 1 := by simp at hlen; omega
    unfold edgeFields
    show (vertex a >>= fun x => Res.ub) = .ub ↔ _
    rcases vertex_total a with ⟨x, hx, _⟩ | hx
    · rw [hx]
      exact iff_of_true rfl (Or.inr ⟨h0, a, x, rfl, hx⟩)
    · rw [hx]
      refine iff_of_false (fun h => by cases h) ?_
      rintro (h | ⟨_, a', x, h1, h2⟩)
      · omega
      · cases h1
        rw [hx] at h2; cases h2
  | m :: a :: b :: ts =>
    rw [hs] at hlen
    have h0 : 2 ≤ l.count ' ' := by simp at hlen; omega
    refine iff_of_false ?_ (by omega)
    intro h
    rcases edgeFields_total (ts := m :: a :: b :: ts) (by simp) with ⟨e, he, _⟩ | he <;> rw [he] at h <;> cases h

/-- C107, exactly when the behaviour is undefined: some line has no blank, or one blank and a number after it, and all lines before it
are read as edges. -/
theorem C107_exact (text : List Char) : buildEdges (getlines [] text) = .ub ↔
    ∃ pre l post, getlines [] text = pre ++ l :: post ∧ (∀ l' ∈ pre, ∃ e, edgeFields (split ' ' l') = .ok e) ∧
      (l.count ' ' = 0 ∨ l.count ' ' = 1 ∧ ∃ a x, (split ' ' l)[1]? = some a ∧ vertex a = .ok x) := by
  generalize getlines [] text = ls
  induction ls with
  | nil =>
    refine iff_of_false (fun h => by cases h) ?_
    rintro ⟨pre, l, post, h, _⟩
    cases pre <;> cases h
  | cons l ls ih =>
    obtain ⟨m, ts, hm⟩ : ∃ m ts, split ' ' l = m :: ts := by
      cases hh : split ' ' l with
      | nil => exact absurd hh (split_ne_nil _ _)
      | cons m ts => exact ⟨m, ts, rfl⟩
    have hrd : rd (split ' ' l) 0 = .ok m := by rw [hm]; rfl
    by_cases hu : edgeFields (split ' ' l) = .ub
    · refine iff_of_true (by rw [buildEdges, hu]; rfl) ?_
      exact ⟨[], l, ls, rfl, by simp, (edgeFields_ub l).1 hu⟩
    · have hcase : (∃ e, edgeFields (split ' ' l) = .ok e) ∨ edgeFields (split ' ' l) = .throws := by
        by_cases h3 : 3 ≤ (split ' ' l).length
        · rcases edgeFields_total h3 with ⟨e, he, _⟩ | he
          · exact Or.inl ⟨e, he⟩
          · exact Or.inr he
        · right
          have hl := split_length ' ' l
          rw [edgeFields_ub] at hu
          match hs : split ' ' l with
          | [] => rw [hs] at hl; simp at hl
          | [m] => rw [hs] at hl; exact absurd (Or.inl (by simp at hl; omega)) hu
          | [m, a] =>
            rw [hs] at hl hu
            rcases vertex_total a with ⟨x, hx, _⟩ | hx
            · exact absurd (Or.inr ⟨by simp at hl; omega, a, x, rfl, hx⟩) hu
            · unfold edgeFields
              show (vertex a >>= fun x => Res.ub) = .throws
              rw [hx]; rfl
          | m :: a :: b :: ts => rw [hs] at h3; simp at h3
      rcases hcase with ⟨e, he⟩ | ht
      · have e1 : buildEdges (l :: ls) = .ub ↔ buildEdges ls = .ub := by
          rw [buildEdges, he, Res.ok_bind, hrd, Res.ok_bind]
          constructor
          · intro h
            cases hb : buildEdges ls <;> rw [hb] at h <;> first | rfl | (cases h)
          · intro h; rw [h]; rfl
        rw [e1, ih]
        constructor
        · rintro ⟨pre, l', post, h1, h2, h3⟩
          refine ⟨l :: pre, l', post, by rw [h1]; rfl, ?_, h3⟩
          intro y hy
          rcases List.mem_cons.1 hy with rfl | hy
          · exact ⟨e, he⟩
          · exact h2 y hy
        · rintro ⟨pre, l', post, h1, h2, h3⟩
          cases pre with
          | nil =>
            cases h1
            exact absurd ((edgeFields_ub l).2 h3) hu
          | cons y pre =>
            cases h1
            exact ⟨pre, l', post, rfl, fun z hz => h2 z (by simp [hz]), h3⟩
      · refine iff_of_false (by rw [buildEdges, ht]; intro h; cases h) ?_
        rintro ⟨pre, l', post, h1, h2, h3⟩
        cases pre with
        | nil =>
          cases h1
          exact hu ((edgeFields_ub l).2 h3)
        | cons y pre =>
          cases h1
          obtain ⟨e, he⟩ := h2 l (by simp)
          rw [ht] at he; cases he

/-- C107 is false: an empty line. -/
theorem C107_refuted : ¬ C107_Full := by
  intro h
  have e : buildEdges (getlines [] ("a 0 1\n\n".toList)) = .ub := by decide
  rcases h "a 0 1\n\n".toList with ⟨es, h1⟩ | h1 <;> rw [e] at h1 <;> cases h1

/-- C107: a vertex that is no `int` throws … -/
theorem C107_big (x : Nat) (hx : 2 ^ 31 ≤ x) : vertex (Nat.toDigits 10 x) = .throws := by
  unfold vertex
  rw [stoi_digits_big hx]; rfl

/-- … and a negative one is taken for a vertex of the upper half of the 32-bit numbers. -/
theorem C107_negative (x : Nat) (h0 : 0 < x) (hx : x ≤ 2 ^ 31) : vertex ('-' :: Nat.toDigits 10 x) = .ok (2 ^ 32 - x) := by
  unfold vertex
  rw [stoi_negative hx, Res.ok_bind]
  congr 1
  omega

example : ∀ l ∈ getlines [] "a 0 1\nd x 7\n".toList, 2 ≤ l.count ' ' := by decide
example : buildEdges (getlines [] "a 0 1\nd x 7\n".toList) = .throws := by decide
example : buildEdges (getlines [] "a 0 1\nd 2 7 x\na 3 4".toList) = .ok [(0, 1), (3, 4)] := by decide

end Tools
end DK2
