import Verif.Param.One
/-! Helper lemmas: items of nested vectors. -/
namespace Sparta.Param

theorem grow_get {d i : Nat} {l : List Val} : ∃ v, (grow d i l)[i]? = some v ∧ (l[i]? = some v ∨ (l.length ≤ i ∧ v = zero d)) := by
  unfold grow
  rcases Nat.lt_or_ge i l.length with h | h
  · refine ⟨l[i], ?_, Or.inl (List.getElem?_eq_getElem h)⟩
    rw [List.getElem?_append_left h, List.getElem?_eq_getElem h]
  · refine ⟨zero d, ?_, Or.inr ⟨h, rfl⟩⟩
    rw [List.getElem?_append_right h, List.getElem?_replicate, if_pos (by omega)]

theorem grow_old {d i k : Nat} {l : List Val} (h : k < l.length) : (grow d i l)[k]? = l[k]? := by
  unfold grow
  exact List.getElem?_append_left h

theorem grow_len {d i : Nat} {l : List Val} : (grow d i l).length = max l.length (i + 1) := by
  unfold grow
  rw [List.length_append, List.length_replicate]
  omega

theorem getD_grow {d i : Nat} {l : List Val} {v : Val} (h : l[i]? = some v) : (grow d i l).getD i (zero d) = v := by
  obtain ⟨w, h1, h2⟩ := grow_get (d := d) (i := i) (l := l)
  rw [List.getD_eq_getElem?_getD, h1]
  rcases h2 with h2 | h2
  · rw [h] at h2
    injection h2 with h2
    exact h2.symm
  · rw [List.getElem?_eq_none h2.1] at h
    cases h

theorem getD_grow_new {d i : Nat} {l : List Val} (h : l.length ≤ i) : (grow d i l).getD i (zero d) = zero d := by
  obtain ⟨w, h1, h2⟩ := grow_get (d := d) (i := i) (l := l)
  rw [List.getD_eq_getElem?_getD, h1]
  rcases h2 with h2 | h2
  · rw [List.getElem?_eq_none h] at h2
    cases h2
  · exact h2.2

/-- the item that was set can be read -/
theorem getIn_setIn {c : Str → Except Exn Nat} {t : Str} : ∀ {d : Nat} {is : List Nat} {v : Val}, hasDim d v = true →
    (setIn c t d is v).2 = none → ∃ n, c t = .ok n ∧ getIn d is (setIn c t d is v).1 = .ok n
  | d, [], v, _, h => by
    unfold setIn setFinal at h ⊢
    split at h
    · rename_i e
      subst e
      split at h
      · rename_i n e
        refine ⟨n, e, ?_⟩
        rw [if_pos rfl]
        rfl
      · cases h
    · cases h
  | 0, _ :: _, v, _, h => by cases h
  | d + 1, i :: is, .leaf n, _, h => by cases h
  | d + 1, i :: is, .vec l, hv, h => by
    have hl : l.all (hasDim d) = true := hv
    obtain ⟨n, h1, h2⟩ := getIn_setIn (d := d) (is := is) (getD_dim (i := i) (grow_dim (i := i) hl)) h
    refine ⟨n, h1, ?_⟩
    show getIn (d + 1) (i :: is) (.vec ((grow d i l).set i _)) = _
    unfold getIn
    rw [List.getElem?_set, if_pos rfl, if_pos (by rw [grow_len]; omega)]
    exact h2

/-- another item that could be read before is what it was, whether or not the change succeeds -/
theorem getIn_other {c : Str → Except Exn Nat} {t : Str} : ∀ {d : Nat} {is ks : List Nat} {v : Val} {n : Nat}, ks ≠ is →
    getIn d ks v = .ok n → getIn d ks (setIn c t d is v).1 = .ok n
  | d, [], ks, v, n, hne, h => by
    unfold setIn setFinal
    split
    · rename_i e
      subst e
      cases ks with
      | nil => exact absurd rfl hne
      | cons a b => cases v <;> cases h
    · exact h
  | 0, _ :: _, ks, v, n, _, h => by
    unfold setIn
    exact h
  | d + 1, i :: is, ks, .leaf m, n, _, h => h
  | d + 1, i :: is, [], .vec l, n, _, h => by cases h
  | d + 1, i :: is, k :: ks, .vec l, n, hne, h => by
    show getIn (d + 1) (k :: ks) (.vec ((grow d i l).set i _)) = _
    unfold getIn at h ⊢
    split at h
    · cases h
    · rename_i w hw
      have hk : k < l.length := by
        rcases Nat.lt_or_ge k l.length with h' | h'
        · exact h'
        · rw [List.getElem?_eq_none h'] at hw
          cases hw
      rw [List.getElem?_set]
      by_cases e : i = k
      · subst e
        rw [if_pos rfl, if_pos (by rw [grow_len]; omega), getD_grow hw]
        exact getIn_other (fun e => hne (by rw [e])) h
      · rw [if_neg e, grow_old hk, hw]
        exact h

/-- the size of a vector that existed, after an item was set (or the attempt failed) -/
theorem sizeIn_setIn {c : Str → Except Exn Nat} {t : Str} : ∀ {d : Nat} {is ks : List Nat} {v : Val} {m : Nat},
    sizeIn d ks v = .ok m → ∃ m', sizeIn d ks (setIn c t d is v).1 = .ok m' ∧ m ≤ m' ∧
      (m' = m ∨ ∃ k rest, is = ks ++ k :: rest ∧ m' = max m (k + 1))
  | d, [], ks, v, m, h => by
    refine ⟨m, ?_, Nat.le_refl _, Or.inl rfl⟩
    unfold setIn setFinal
    split
    · rename_i e
      subst e
      cases ks <;> cases v <;> cases h
    · exact h
  | 0, _ :: _, ks, v, m, h => by
    cases ks <;> cases v <;> cases h
  | d + 1, i :: is, ks, .leaf m, n, h => by cases ks <;> cases h
  | d + 1, i :: is, [], .vec l, m, h => by
    injection h with h
    subst h
    refine ⟨((grow d i l).set i _).length, rfl, ?_, Or.inr ⟨i, is, rfl, ?_⟩⟩
    · rw [List.length_set, grow_len]
      omega
    · rw [List.length_set, grow_len]
  | d + 1, i :: is, k :: ks, .vec l, m, h => by
    unfold sizeIn at h
    split at h
    · cases h
    · rename_i w hw
      have hk : k < l.length := by
        rcases Nat.lt_or_ge k l.length with h' | h'
        · exact h'
        · rw [List.getElem?_eq_none h'] at hw
          cases hw
      by_cases e : i = k
      · subst e
        obtain ⟨m', h1, h2, h3⟩ := sizeIn_setIn (c := c) (t := t) (is := is) h
        refine ⟨m', ?_, h2, ?_⟩
        · show sizeIn (d + 1) (i :: ks) (.vec ((grow d i l).set i _)) = _
          unfold sizeIn
          rw [List.getElem?_set, if_pos rfl, if_pos (by rw [grow_len]; omega), getD_grow hw]
          exact h1
        · rcases h3 with h3 | ⟨k', rest, e1, e2⟩
          · exact Or.inl h3
          · exact Or.inr ⟨k', rest, by rw [e1]; rfl, e2⟩
      · refine ⟨m, ?_, Nat.le_refl _, Or.inl rfl⟩
        show sizeIn (d + 1) (k :: ks) (.vec ((grow d i l).set i _)) = _
        unfold sizeIn
        rw [List.getElem?_set, if_neg e, grow_old hk, hw]
        exact h

/-- when setting an item succeeds, there are exactly as many indices as dimensions -/
theorem setIn_len {c : Str → Except Exn Nat} {t : Str} : ∀ {d : Nat} {is : List Nat} {v : Val}, (setIn c t d is v).2 = none →
    is.length = d
  | d, [], v, h => by
    unfold setIn setFinal at h
    split at h
    · rename_i e
      exact e.symm
    · cases h
  | 0, _ :: _, v, h => by cases h
  | d + 1, i :: is, .leaf n, h => by cases h
  | d + 1, i :: is, .vec l, h => by
    have := setIn_len (d := d) (is := is) h
    rw [List.length_cons, this]

/-- with as many indices as dimensions and a text that converts, it succeeds -/
theorem setIn_succeeds {c : Str → Except Exn Nat} {t : Str} {n : Nat} (hc : c t = .ok n) : ∀ {d : Nat} {is : List Nat} {v : Val},
    hasDim d v = true → is.length = d → (setIn c t d is v).2 = none
  | d, [], v, _, h => by
    subst h
    unfold setIn setFinal
    rw [if_pos (by rfl), hc]
  | 0, _ :: _, v, _, h => by cases h
  | d + 1, i :: is, .leaf n, hv, h => by cases hv
  | d + 1, i :: is, .vec l, hv, h => by
    have hl : l.all (hasDim d) = true := hv
    exact setIn_succeeds (d := d) (is := is) hc (getD_dim (grow_dim hl)) (by injection h)

end Sparta.Param
