import Verif.DKProofs
/-!
# Merging and moving single levels

Lemmas on lists of levels used by the variants that merge one level at a time.
-/

namespace DK2
namespace DK
variable {K : K2Impl}

theorem mem_flat_idx {ks : List (Option K.T)} {e : Edge} :
    e ∈ flat K ks ↔ ∃ (i : Nat) (t : K.T), ks[i]? = some (some t) ∧ e ∈ K.edges t := by
  rw [mem_flat]
  constructor
  · rintro ⟨t, ht, he⟩
    obtain ⟨i, hi⟩ := List.getElem?_of_mem ht
    exact ⟨i, t, hi, he⟩
  · rintro ⟨i, t, hi, he⟩
    exact ⟨t, List.mem_of_getElem? hi, he⟩

theorem flat_nodup_iff {ks : List (Option K.T)} :
    (flat K ks).Nodup ↔ (∀ (i : Nat) (t : K.T), ks[i]? = some (some t) → (K.edges t).Nodup) ∧
      (∀ (i j : Nat) (t u : K.T), i ≠ j → ks[i]? = some (some t) → ks[j]? = some (some u) →
        ∀ e ∈ K.edges t, e ∉ K.edges u) := by
  induction ks with
  | nil => simp
  | cons o ks ih =>
    constructor
    · intro h
      have hks : (flat K ks).Nodup := by
        cases o with
        | none => simpa using h
        | some t => rw [flat_some, List.nodup_append] at h; exact h.2.1
      obtain ⟨h1, h2⟩ := ih.1 hks
      refine ⟨?_, ?_⟩
      · intro i t hi
        cases i with
        | zero =>
          simp at hi; subst hi
          rw [flat_some, List.nodup_append] at h; exact h.1
        | succ i => exact h1 i t (by simpa using hi)
      · intro i j t u hij hi hj e he hu
        cases i with
        | zero =>
          simp at hi; subst hi
          cases j with
          | zero => exact hij rfl
          | succ j =>
            rw [flat_some, List.nodup_append] at h
            exact h.2.2 e he e (mem_flat_idx.2 ⟨j, u, by simpa using hj, hu⟩) rfl
        | succ i =>
          cases j with
          | zero =>
            simp at hj; subst hj
            rw [flat_some, List.nodup_append] at h
            exact h.2.2 e hu e (mem_flat_idx.2 ⟨i, t, by simpa using hi, he⟩) rfl
          | succ j => exact h2 i j t u (by omega) (by simpa using hi) (by simpa using hj) e he hu
    · rintro ⟨h1, h2⟩
      have hks : (flat K ks).Nodup := ih.2 ⟨fun i t hi => h1 (i + 1) t (by simpa using hi),
        fun i j t u hij hi hj => h2 (i + 1) (j + 1) t u (by omega) (by simpa using hi) (by simpa using hj)⟩
      cases o with
      | none => simpa using hks
      | some t =>
        rw [flat_some, List.nodup_append]
        refine ⟨h1 0 t rfl, hks, ?_⟩
        rintro a ha b hb rfl
        obtain ⟨j, u, hj, hu⟩ := mem_flat_idx.1 hb
        exact h2 0 (j + 1) t u (by omega) rfl (by simpa using hj) a ha hu

/-- Merging slot `p` into slot `q`. -/
theorem flat_merge (hK : K.Lawful) {n p q : Nat} {a b : K.T} {E : List (Option K.T)}
    (hv : AllValid K n E) (hpq : p ≠ q) (hp : E[p]? = some (some b)) (hq : E[q]? = some (some a)) :
    AllValid K n ((E.set q (some (K.union a b))).set p none) ∧
    (∀ e, e ∈ flat K ((E.set q (some (K.union a b))).set p none) ↔ e ∈ flat K E) ∧
    ((flat K E).Nodup → (flat K ((E.set q (some (K.union a b))).set p none)).Nodup) := by
  have hva : K.valid n a := hv a (List.mem_of_getElem? hq)
  have hvb : K.valid n b := hv b (List.mem_of_getElem? hp)
  have hu := hK.union_valid n a b hva hvb
  have hue := hK.union_edges n a b hva hvb
  have hpl : p < E.length := (List.getElem?_eq_some_iff.1 hp).1
  have hql : q < E.length := (List.getElem?_eq_some_iff.1 hq).1
  have get : ∀ (i : Nat) (t : K.T), ((E.set q (some (K.union a b))).set p none)[i]? = some (some t) ↔
      (i = q ∧ t = K.union a b) ∨ (i ≠ q ∧ i ≠ p ∧ E[i]? = some (some t)) := by
    intro i t
    rw [List.getElem?_set, List.length_set, List.getElem?_set]
    by_cases h1 : p = i
    · subst h1; simp [hpl, hpq]
    · by_cases h2 : q = i
      · subst h2
        simp [hpq, hql, eq_comm]
      · have h1' : i ≠ p := fun h => h1 h.symm
        have h2' : i ≠ q := fun h => h2 h.symm
        simp [h1, h2, h1', h2']
  refine ⟨?_, ?_, ?_⟩
  · intro t ht
    obtain ⟨i, hi⟩ := List.getElem?_of_mem ht
    rcases (get i t).1 hi with ⟨_, rfl⟩ | ⟨_, _, h⟩
    · exact hu
    · exact hv t (List.mem_of_getElem? h)
  · intro e
    rw [mem_flat_idx, mem_flat_idx]
    constructor
    · rintro ⟨i, t, hi, he⟩
      rcases (get i t).1 hi with ⟨_, rfl⟩ | ⟨_, _, h⟩
      · rcases (hue e).1 he with h | h
        · exact ⟨q, a, hq, h⟩
        · exact ⟨p, b, hp, h⟩
      · exact ⟨i, t, h, he⟩
    · rintro ⟨i, t, hi, he⟩
      by_cases h1 : i = q
      · subst h1
        rw [hq] at hi; cases hi
        exact ⟨i, _, (get i _).2 (Or.inl ⟨rfl, rfl⟩), (hue e).2 (Or.inl he)⟩
      · by_cases h2 : i = p
        · subst h2
          rw [hp] at hi; cases hi
          exact ⟨q, _, (get q _).2 (Or.inl ⟨rfl, rfl⟩), (hue e).2 (Or.inr he)⟩
        · exact ⟨i, t, (get i t).2 (Or.inr ⟨h1, h2, hi⟩), he⟩
  · rw [flat_nodup_iff, flat_nodup_iff]
    rintro ⟨h1, h2⟩
    refine ⟨?_, ?_⟩
    · intro i t hi
      rcases (get i t).1 hi with ⟨_, rfl⟩ | ⟨_, _, h⟩
      · exact hK.edges_nodup n _ hu
      · exact h1 i t h
    · intro i j t u hij hi hj e he hu'
      rcases (get i t).1 hi with ⟨rfl, rfl⟩ | ⟨hi1, hi2, hi3⟩
      · rcases (get j u).1 hj with ⟨rfl, _⟩ | ⟨hj1, hj2, hj3⟩
        · exact hij rfl
        · rcases (hue e).1 he with h | h
          · exact h2 i j a u hij hq hj3 e h hu'
          · exact h2 p j b u (fun h => hj2 h.symm) hp hj3 e h hu'
      · rcases (get j u).1 hj with ⟨rfl, rfl⟩ | ⟨hj1, hj2, hj3⟩
        · rcases (hue e).1 hu' with h | h
          · exact h2 i j t a hij hi3 hq e he h
          · exact h2 i p t b hi2 hi3 hp e he h
        · exact h2 i j t u hij hi3 hj3 e he hu'

/-- Moving slot `p` to the empty slot `q`. -/
theorem flat_move {n p q : Nat} {o : Option K.T} {E : List (Option K.T)}
    (hv : AllValid K n E) (hpq : p ≠ q) (hp : E[p]? = some o) (hq : E[q]? = some none) :
    AllValid K n ((E.set q o).set p none) ∧
    (∀ e, e ∈ flat K ((E.set q o).set p none) ↔ e ∈ flat K E) ∧
    ((flat K E).Nodup → (flat K ((E.set q o).set p none)).Nodup) := by
  have hpl : p < E.length := (List.getElem?_eq_some_iff.1 hp).1
  have hql : q < E.length := (List.getElem?_eq_some_iff.1 hq).1
  have get : ∀ (i : Nat) (t : K.T), ((E.set q o).set p none)[i]? = some (some t) ↔
      (i = q ∧ o = some t) ∨ (i ≠ q ∧ i ≠ p ∧ E[i]? = some (some t)) := by
    intro i t
    rw [List.getElem?_set, List.length_set, List.getElem?_set]
    by_cases h1 : p = i
    · subst h1; simp [hpl, hpq]
    · by_cases h2 : q = i
      · subst h2
        simp [hpq, hql]
      · have h1' : i ≠ p := fun h => h1 h.symm
        have h2' : i ≠ q := fun h => h2 h.symm
        simp [h1, h2, h1', h2']
  have back : ∀ (i : Nat) (t : K.T), ((E.set q o).set p none)[i]? = some (some t) →
      ∃ j, E[j]? = some (some t) ∧ (i = q ∧ j = p ∨ i ≠ q ∧ i ≠ p ∧ j = i) := by
    intro i t hi
    rcases (get i t).1 hi with ⟨h1, h2⟩ | ⟨h1, h2, h3⟩
    · exact ⟨p, by rw [hp, h2], Or.inl ⟨h1, rfl⟩⟩
    · exact ⟨i, h3, Or.inr ⟨h1, h2, rfl⟩⟩
  refine ⟨?_, ?_, ?_⟩
  · intro t ht
    obtain ⟨i, hi⟩ := List.getElem?_of_mem ht
    obtain ⟨j, hj, _⟩ := back i t hi
    exact hv t (List.mem_of_getElem? hj)
  · intro e
    rw [mem_flat_idx, mem_flat_idx]
    constructor
    · rintro ⟨i, t, hi, he⟩
      obtain ⟨j, hj, _⟩ := back i t hi
      exact ⟨j, t, hj, he⟩
    · rintro ⟨i, t, hi, he⟩
      by_cases h1 : i = q
      · subst h1; rw [hq] at hi; cases hi
      · by_cases h2 : i = p
        · subst h2
          rw [hp] at hi
          exact ⟨q, t, (get q t).2 (Or.inl ⟨rfl, Option.some.inj hi⟩), he⟩
        · exact ⟨i, t, (get i t).2 (Or.inr ⟨h1, h2, hi⟩), he⟩
  · rw [flat_nodup_iff, flat_nodup_iff]
    rintro ⟨h1, h2⟩
    refine ⟨?_, ?_⟩
    · intro i t hi
      obtain ⟨j, hj, _⟩ := back i t hi
      exact h1 j t hj
    · intro i j t u hij hi hj
      obtain ⟨i', hi', ci⟩ := back i t hi
      obtain ⟨j', hj', cj⟩ := back j u hj
      refine h2 i' j' t u ?_ hi' hj'
      omega

end DK
end DK2
