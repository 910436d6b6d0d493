import Verif.PTree.Lemmas3
/-! Lookups: what they find and which counts they change. -/
namespace Sparta.PTree
open Sparta.Strings (Str)

inductive F2 (R : Node → Node → Prop) : List Node → List Node → Prop
  | nil : F2 R [] []
  | cons {c c' : Node} {cs cs' : List Node} : R c c' → F2 R cs cs' → F2 R (c :: cs) (c' :: cs')

theorem F2.append {R : Node → Node → Prop} {a b a' b' : List Node} (h : F2 R a a') (h2 : F2 R b b') :
    F2 R (a ++ b) (a' ++ b') := by
  induction h with
  | nil => exact h2
  | cons h _ ih => exact .cons h ih

theorem F2.reverse {R : Node → Node → Prop} {a a' : List Node} (h : F2 R a a') : F2 R a.reverse a'.reverse := by
  induction h with
  | nil => exact .nil
  | cons h _ ih =>
    rw [List.reverse_cons, List.reverse_cons]
    exact ih.append (.cons h .nil)

theorem F2.length {R : Node → Node → Prop} {a a' : List Node} (h : F2 R a a') : a'.length = a.length := by
  induction h with
  | nil => rfl
  | cons h _ ih => simp [ih]

theorem F2.get {R : Node → Node → Prop} {a a' : List Node} (h : F2 R a a') {i : Nat} {c' : Node} (hi : a'[i]? = some c') :
    ∃ c, a[i]? = some c ∧ R c c' := by
  induction h generalizing i with
  | nil => cases i <;> cases hi
  | @cons x x' cs cs' h _ ih =>
    cases i with
    | zero =>
      obtain rfl := Option.some.inj hi
      exact ⟨x, rfl, h⟩
    | succ i => exact ih hi

theorem F2.get' {R : Node → Node → Prop} {a a' : List Node} (h : F2 R a a') {i : Nat} {c : Node} (hi : a[i]? = some c) :
    ∃ c', a'[i]? = some c' ∧ R c c' := by
  induction h generalizing i with
  | nil => cases i <;> cases hi
  | @cons x x' cs cs' h _ ih =>
    cases i with
    | zero =>
      obtain rfl := Option.some.inj hi
      exact ⟨x', rfl, h⟩
    | succ i => exact ih hi

theorem F2.set {R : Node → Node → Prop} {a a' : List Node} (h : F2 R a a') {i : Nat} {c d : Node} (hi : a[i]? = some c)
    (hd : R c d) : F2 R a (a'.set i d) := by
  induction h generalizing i with
  | nil => exact .nil
  | @cons x x' cs cs' h ht ih =>
    cases i with
    | zero =>
      obtain rfl := Option.some.inj hi
      exact .cons hd ht
    | succ i => exact .cons h (ih hi)

/-- `n'` is `n` after the nodes at the end of the path have been counted as read -/
def Inc (leaf : Bool) : List Str → Node → Node → Prop
  | [], n, n' => ∃ k, n' = { n with reads := n.reads + k } ∧ (n.value.isSome = true ∨ leaf = false → 0 < k)
  | b :: p, n, n' => ∃ cs, n' = { n with children := cs } ∧
      F2 (fun c c' => if patMatches c.name b = true then Inc leaf p c c' else c' = c) n.children cs

/-- one level of `Inc` -/
def IncC (leaf : Bool) (b : Str) (p : List Str) (c c' : Node) : Prop :=
  if patMatches c.name b = true then Inc leaf p c c' else c' = c

theorem inc_cons {leaf : Bool} {b : Str} {p : List Str} {n n' : Node} :
    Inc leaf (b :: p) n n' ↔ ∃ cs, n' = { n with children := cs } ∧ F2 (IncC leaf b p) n.children cs := Iff.rfl

theorem inc_name {leaf : Bool} {p : List Str} {n n' : Node} (h : Inc leaf p n n') : n'.name = n.name := by
  cases p with
  | nil => obtain ⟨k, rfl, _⟩ := h; rfl
  | cons b p => obtain ⟨cs, rfl, _⟩ := inc_cons.1 h; rfl

theorem incC_name {leaf : Bool} {b : Str} {p : List Str} {c c' : Node} (h : IncC leaf b p c c') : c'.name = c.name := by
  unfold IncC at h
  split at h
  · exact inc_name h
  · rw [h]

theorem firstL_f2 {α : Type} {g : Node → Option α} {b : Str} {p : List Str} {cs cs' : List Node}
    (h : F2 (fun c c' => c'.name = c.name ∧ first g p c' = first g p c) cs cs') : firstL g b p cs' = firstL g b p cs := by
  unfold firstL
  have := h.reverse
  generalize cs.reverse = l at this
  generalize cs'.reverse = l' at this
  clear h
  induction this with
  | nil => rfl
  | cons h _ ih => rw [List.findSome?_cons, List.findSome?_cons, h.1, h.2, ih]

theorem F2.imp {R S : Node → Node → Prop} {a a' : List Node} (h : F2 R a a') (hi : ∀ c c', R c c' → S c c') : F2 S a a' := by
  induction h with
  | nil => exact .nil
  | cons h _ ih => exact .cons (hi _ _ h) ih

theorem inc_first {α : Type} {g : Node → Option α} (hg : ∀ (n : Node) (cs : List Node), g { n with children := cs } = g n)
    (hg2 : ∀ (n : Node) (k : Nat), g { n with reads := k } = g n) {leaf : Bool} {q : List Str} {n n' : Node}
    (h : Inc leaf q n n') (p : List Str) : first g p n' = first g p n := by
  induction q generalizing n n' p with
  | nil =>
    obtain ⟨k, rfl, _⟩ := h
    cases p with
    | nil => exact hg2 _ _
    | cons b p => rfl
  | cons c q ih =>
    obtain ⟨cs, rfl, hf2⟩ := inc_cons.1 h
    cases p with
    | nil => exact hg _ _
    | cons b p =>
      rw [first_cons, first_cons]
      refine firstL_f2 (hf2.imp ?_)
      intro d d' hd
      refine ⟨incC_name hd, ?_⟩
      unfold IncC at hd
      split at hd
      · exact ih hd p
      · rw [hd]

theorem inc_inv {P : List Str → Pay → Prop} {leaf : Bool} {q : List Str} {n n' : Node} (h : Inc leaf q n n') (hi : Inv P n)
    (hP : ∀ L y k, strip L q = some [] → P L y → (y.1.isSome = true ∨ leaf = false → 0 < k) →
      P L (y.1, y.2.1, y.2.2 + k)) : Inv P n' := by
  induction q generalizing n n' P with
  | nil =>
    obtain ⟨k, rfl, hk⟩ := h
    rw [inv_iff] at hi ⊢
    exact ⟨hP [] (pay n) k rfl hi.1 hk, hi.2⟩
  | cons c q ih =>
    obtain ⟨cs, rfl, hf2⟩ := inc_cons.1 h
    rw [inv_iff] at hi ⊢
    refine ⟨hi.1, fun d' hd' => ?_⟩
    obtain ⟨i, hdi⟩ := List.getElem?_of_mem hd'
    obtain ⟨d, hd, hr⟩ := hf2.get hdi
    have hmem := List.mem_of_getElem? hd
    rw [incC_name hr]
    unfold IncC at hr
    split at hr
    · rename_i hm
      refine ih hr (hi.2 d hmem) ?_
      intro L y k hs hy hk
      exact hP (d.name :: L) y k (by simp [strip, hm, hs]) hy hk
    · rw [hr]; exact hi.2 d hmem

theorem inc_hasVal {leaf : Bool} {q : List Str} {n n' : Node} (h : Inc leaf q n n') {K : List Str} (hv : HasVal n K) :
    HasVal n' K := by
  induction q generalizing n n' K with
  | nil =>
    obtain ⟨k, rfl, hk⟩ := h
    cases K with
    | nil => rw [hasVal_nil] at hv ⊢; exact hv
    | cons a K => rw [hasVal_cons] at hv ⊢; exact hv
  | cons c q ih =>
    obtain ⟨cs, rfl, hf2⟩ := inc_cons.1 h
    cases K with
    | nil => rw [hasVal_nil] at hv ⊢; exact hv
    | cons a K =>
      rw [hasVal_cons] at hv ⊢
      obtain ⟨d, hd, rfl, hdv⟩ := hv
      obtain ⟨i, hdi⟩ := List.getElem?_of_mem hd
      obtain ⟨d', hd', hr⟩ := hf2.get' hdi
      refine ⟨d', List.mem_of_getElem? hd', incC_name hr, ?_⟩
      unfold IncC at hr
      split at hr
      · exact ih hr hdv
      · rw [hr]; exact hdv

theorem incRead_name (n : Node) : n.incRead.name = n.name := rfl

/-- counting a node at the end of the path once more -/
theorem inc_modify {leaf : Bool} {p : List Str} {n n' : Node} (h : Inc leaf p n n') {r : Ref} {L : List Str}
    (hr : namesAt r n' = some L) (hL : strip L p = some []) : Inc leaf p n (modifyAt Node.incRead r n') := by
  induction p generalizing n n' r L with
  | nil =>
    obtain ⟨k, rfl, hk⟩ := h
    have : L = [] := by cases L with
      | nil => rfl
      | cons => cases hL
    subst this
    cases r with
    | cons i r =>
      exfalso
      unfold namesAt at hr
      split at hr
      · rw [Option.map_eq_some_iff] at hr
        obtain ⟨_, _, h⟩ := hr
        cases h
      · cases hr
    | nil => exact ⟨k + 1, by simp [modifyAt, Node.incRead, Nat.add_assoc], fun _ => by omega⟩
  | cons b p ih =>
    obtain ⟨cs, rfl, hf2⟩ := inc_cons.1 h
    cases r with
    | nil =>
      obtain rfl := Option.some.inj hr
      cases hL
    | cons i r =>
      unfold namesAt at hr
      cases hc : cs[i]? with
      | none =>
        have : ({ n with children := cs } : Node).children[i]? = none := hc
        rw [this] at hr; cases hr
      | some c' =>
        have e : ({ n with children := cs } : Node).children[i]? = some c' := hc
        rw [e] at hr
        dsimp only at hr
        rw [Option.map_eq_some_iff] at hr
        obtain ⟨L', h', rfl⟩ := hr
        obtain ⟨c, hci, hcr⟩ := hf2.get hc
        simp only [modifyAt, hc]
        refine inc_cons.2 ⟨cs.set i (modifyAt Node.incRead r c'), rfl, hf2.set hci ?_⟩
        have hm : patMatches c'.name b = true ∧ strip L' p = some [] := by
          simp only [strip] at hL
          split at hL
          · rename_i hm; exact ⟨hm, hL⟩
          · cases hL
        unfold IncC at hcr ⊢
        have hn : c'.name = c.name := incC_name (by unfold IncC; exact hcr)
        rw [← hn, if_pos hm.1] at hcr ⊢
        exact ih hcr h' hm.2

/-! ### the last level -/

/-- the nodes a lookup counts -/
def counts (leaf : Bool) (n : Node) : Prop := n.value.isSome = true ∨ leaf = false

theorem counts_iff {leaf : Bool} {n : Node} : (n.value.isSome || !leaf) = true ↔ counts leaf n := by
  simp [counts]

theorem lastLoop_f2 (leaf : Bool) (nm : Str) (l : List Node) : F2 (IncC leaf nm []) l (lastLoop leaf nm l).1 := by
  induction l with
  | nil => exact .nil
  | cons c older ih =>
    unfold lastLoop
    dsimp only
    split
    · rename_i hm
      split
      · refine .cons ?_ ih
        unfold IncC
        rw [if_pos hm]
        exact ⟨1, rfl, fun _ => by omega⟩
      · rename_i hv
        refine .cons ?_ ih
        unfold IncC
        rw [if_pos hm]
        exact ⟨0, by cases c; rfl, fun h => absurd (counts_iff.2 h) hv⟩
    · rename_i hm
      refine .cons ?_ ih
      unfold IncC
      rw [if_neg hm]

theorem lastLoop_result (leaf : Bool) (nm : Str) (l : List Node) :
    (∀ i, (lastLoop leaf nm l).2.1 = some i → ∃ newer c older, l = newer ++ c :: older ∧ i = older.length ∧
      patMatches c.name nm = true ∧ counts leaf c ∧ ∀ d ∈ newer, patMatches d.name nm = true → ¬ counts leaf d) ∧
    ((lastLoop leaf nm l).2.1 = none → ∀ d ∈ l, patMatches d.name nm = true → ¬ counts leaf d) ∧
    (∀ i, (lastLoop leaf nm l).2.2 = some i → ∃ newer c older, l = newer ++ c :: older ∧ i = older.length ∧
      patMatches c.name nm = true ∧ ¬ counts leaf c) := by
  induction l with
  | nil =>
    refine ⟨fun i h => (by cases h), fun _ d hd => (by cases hd), fun i h => (by cases h)⟩
  | cons c older ih =>
    obtain ⟨i1, i2, i3⟩ := ih
    have shift3 : ∀ i, (lastLoop leaf nm older).2.2 = some i → ∃ newer d older', c :: older = newer ++ d :: older' ∧
        i = older'.length ∧ patMatches d.name nm = true ∧ ¬ counts leaf d := by
      intro i hi
      obtain ⟨nw, d, ol, e, h⟩ := i3 i hi
      exact ⟨c :: nw, d, ol, by rw [e]; rfl, h⟩
    unfold lastLoop
    dsimp only
    split
    · rename_i hm
      split
      · rename_i hv
        refine ⟨fun i hi => ?_, (fun h => by cases h), shift3⟩
        obtain rfl := Option.some.inj hi
        exact ⟨[], c, older, rfl, rfl, hm, counts_iff.1 hv, by simp⟩
      · rename_i hv
        have hv' : ¬ counts leaf c := fun h => hv (counts_iff.2 h)
        refine ⟨fun i hi => ?_, fun h d hd => ?_, fun i hi => ?_⟩
        · obtain ⟨nw, d, ol, e, h1, h2, h3, h4⟩ := i1 i hi
          refine ⟨c :: nw, d, ol, by rw [e]; rfl, h1, h2, h3, ?_⟩
          intro x hx
          rcases List.mem_cons.1 hx with rfl | hx
          · exact fun _ => hv'
          · exact h4 x hx
        · rcases List.mem_cons.1 hd with rfl | hd
          · exact fun _ => hv'
          · exact i2 h d hd
        · obtain rfl := Option.some.inj hi
          exact ⟨[], c, older, rfl, rfl, hm, hv'⟩
    · rename_i hm
      refine ⟨fun i hi => ?_, fun h d hd => ?_, shift3⟩
      · obtain ⟨nw, d, ol, e, h1, h2, h3, h4⟩ := i1 i hi
        refine ⟨c :: nw, d, ol, by rw [e]; rfl, h1, h2, h3, ?_⟩
        intro x hx
        rcases List.mem_cons.1 hx with rfl | hx
        · exact fun h => absurd h hm
        · exact h4 x hx
      · rcases List.mem_cons.1 hd with rfl | hd
        · exact fun h => absurd h hm
        · exact i2 h d hd

/-! ### the result of a lookup -/

/-- `r` is where the lookup of `p` ends in the tree `n'`; `n` is the tree before it -/
structure Found (leaf : Bool) (p : List Str) (n n' : Node) (r : Ref) : Prop where
  names : ∃ L m, namesAt r n' = some L ∧ nodeAt r n' = some m ∧ strip L p = some [] ∧
    (leaf = true → m.value = look p n) ∧
    (leaf = false → ∀ F : Node → Node, (∀ x, (F x).name = x.name) → first reqOf p (modifyAt F r n') = reqOf (F m))

theorem firstL_value_none {b : Str} {cs : List Node} (h : ∀ d ∈ cs, patMatches d.name b = true → ¬ counts true d) :
    firstL Node.value b [] cs = none := by
  unfold firstL
  rw [List.findSome?_eq_none_iff]
  intro d hd
  split
  · rename_i hm
    have := h d (by simpa using hd) hm
    simpa [counts, first] using this
  · rfl

theorem recursTryGet_last {leaf : Bool} {nm : Str} {n n' : Node} {o : Option Ref}
    (h : recursTryGet leaf nm [] n = some (n', o)) :
    Inc leaf [nm] n n' ∧ (∀ r, o = some r → Found leaf [nm] n n' r) ∧
      (o = none → (leaf = true → look [nm] n = none) ∧ (leaf = false → first reqOf [nm] n = none)) := by
  unfold recursTryGet at h
  split at h
  · cases h
  obtain ⟨rfl, rfl⟩ := Prod.mk.inj (Option.some.inj h)
  have hf := lastLoop_f2 leaf nm n.children.reverse
  obtain ⟨r1, r2, r3⟩ := lastLoop_result leaf nm n.children.reverse
  generalize hl : lastLoop leaf nm n.children.reverse = L at *
  obtain ⟨l', res, bak⟩ := L
  dsimp only at *
  have hf' : F2 (IncC leaf nm []) n.children l'.reverse := by
    have := hf.reverse
    rwa [List.reverse_reverse] at this
  have hsplit : ∀ {nw ol : List Node} {c : Node}, n.children.reverse = nw ++ c :: ol →
      n.children = ol.reverse ++ c :: nw.reverse := by
    intro nw ol c e
    rw [← List.reverse_reverse (as := n.children), e]; simp
  refine ⟨inc_cons.2 ⟨_, rfl, hf'⟩, ?_, ?_⟩
  · intro r hr
    -- the child at index i
    have main : ∀ nw c ol, n.children.reverse = nw ++ c :: ol → patMatches c.name nm = true →
        (leaf = true → c.value = look [nm] n) →
        (leaf = false → ∀ d ∈ nw, ¬ patMatches d.name nm = true) → r = [ol.length] →
        Found leaf [nm] n { n with children := l'.reverse } r := by
      intro nw c ol e hm hv hq er
      have e' := hsplit e
      have hi : n.children[ol.length]? = some c := by
        rw [e']
        have := getElem?_mid ol.reverse nw.reverse c
        rwa [List.length_reverse] at this
      obtain ⟨c', hc', hcr⟩ := hf'.get' hi
      have hcr2 : Inc leaf [] c c' := by
        unfold IncC at hcr
        rwa [if_pos hm] at hcr
      obtain ⟨k, rfl, hk⟩ := hcr2
      refine ⟨[c.name], { c with reads := c.reads + k }, ?_, ?_, by simp [strip, hm], hv, ?_⟩
      · rw [er]; simp [namesAt, hc']
      · rw [er]; simp [nodeAt, hc']
      · intro hlf F hF
        rw [er]
        simp only [modifyAt, hc']
        rw [first_cons]
        show firstL reqOf nm [] (l'.reverse.set ol.length _) = _
        -- the newer children do not match
        obtain ⟨pre, post, epp, hlen⟩ : ∃ pre post, l'.reverse = pre ++ { c with reads := c.reads + k } :: post ∧
            pre.length = ol.length := by
          refine ⟨l'.reverse.take ol.length, l'.reverse.drop (ol.length + 1), ?_, ?_⟩
          · have hlt : ol.length < l'.reverse.length := by
              rcases Nat.lt_or_ge ol.length l'.reverse.length with h | h
              · exact h
              · rw [List.getElem?_eq_none h] at hc'; cases hc'
            rw [List.getElem?_eq_getElem hlt] at hc'
            rw [← Option.some.inj hc', ← List.drop_eq_getElem_cons hlt, List.take_append_drop]
          · have := hf'.length
            rw [List.length_take, this, e']
            simp
        rw [epp, ← hlen, set_mid, firstL_mid]
        have hpost : firstL reqOf nm [] post = none := by
          apply firstL_none
          intro d hd hdm
          obtain ⟨j, hj⟩ := List.getElem?_of_mem hd
          have hj' : l'.reverse[pre.length + 1 + j]? = some d := by
            rw [epp, List.getElem?_append_right (by omega)]
            rw [show pre.length + 1 + j - pre.length = j + 1 by omega]
            exact hj
          obtain ⟨d0, hd0, hr0⟩ := hf'.get hj'
          have hd0' : d0 ∈ nw := by
            rw [e', List.getElem?_append_right (by simp; omega)] at hd0
            rw [show pre.length + 1 + j - ol.reverse.length = j + 1 by simp; omega] at hd0
            have := List.mem_of_getElem? (l := nw.reverse) (i := j) hd0
            simpa using this
          rw [incC_name hr0] at hdm
          exact hq hlf d0 hd0' hdm
        rw [hpost, hF, if_pos (show patMatches ({ c with reads := c.reads + k } : Node).name nm = true from hm)]
        simp [first, reqOf]
    cases res with
    | some i =>
      obtain ⟨nw, c, ol, e, ei, hm, hc, hn⟩ := r1 i rfl
      have er : r = [ol.length] := by
        rw [← ei]; exact (Option.some.inj hr).symm
      refine main nw c ol e hm ?_ ?_ er
      · intro hlf
        subst hlf
        have e' := hsplit e
        rw [look, first_cons, e', firstL_mid, firstL_value_none (cs := nw.reverse) (by simpa using hn), if_pos hm]
        have : ∃ w, c.value = some w := Option.isSome_iff_exists.1 (hc.resolve_right (by simp))
        obtain ⟨w, hw⟩ := this
        simp [first, hw]
      · intro hlf d hd hdm
        exact hn d hd hdm (Or.inr hlf)
    | none =>
      cases bak with
      | none => cases hr
      | some i =>
        obtain ⟨nw, c, ol, e, ei, hm, hc⟩ := r3 i rfl
        have er : r = [ol.length] := by
          rw [← ei]; exact (Option.some.inj hr).symm
        have hnone := r2 rfl
        refine main nw c ol e hm ?_ ?_ er
        · intro hlf
          subst hlf
          rw [look, first_cons, firstL_value_none (by simpa using hnone)]
          simpa [counts] using hc
        · intro hlf
          exact absurd (Or.inr hlf) hc
  · intro hr
    have hres : res = none := by
      cases res with
      | none => rfl
      | some i => cases hr
    have hnone := r2 hres
    refine ⟨fun hlf => ?_, fun hlf => ?_⟩
    · subst hlf
      rw [look, first_cons]
      exact firstL_value_none (by simpa using hnone)
    · rw [first_cons]
      apply firstL_none
      intro d hd hdm
      exact hnone d (by simpa using hd) hdm (Or.inr hlf)

/-! ### the other levels -/

theorem F2.split {R : Node → Node → Prop} {a b l' : List Node} {c : Node} (h : F2 R (a ++ c :: b) l') :
    ∃ a' c' b', l' = a' ++ c' :: b' ∧ F2 R a a' ∧ R c c' ∧ F2 R b b' := by
  induction a generalizing l' with
  | nil =>
    cases h with
    | cons h1 h2 => exact ⟨[], _, _, rfl, .nil, h1, h2⟩
  | cons x a ih =>
    cases h with
    | cons h1 h2 =>
      obtain ⟨a', c', b', rfl, i1, i2, i3⟩ := ih h2
      exact ⟨_ :: a', c', b', rfl, .cons h1 i1, i2, i3⟩

theorem modifyAt_twice (F G : Node → Node) (r : Ref) (n : Node) :
    modifyAt F r (modifyAt G r n) = modifyAt (fun x => F (G x)) r n := by
  induction r generalizing n with
  | nil => rfl
  | cons i r ih =>
    cases hc : n.children[i]? with
    | none => simp [modifyAt, hc]
    | some c =>
      have hlt : i < n.children.length := by
        rcases Nat.lt_or_ge i n.children.length with h | h
        · exact h
        · rw [List.getElem?_eq_none h] at hc; cases hc
      simp only [modifyAt, hc]
      rw [List.getElem?_set_self hlt]
      simp [ih]

theorem nodeAt_modifyAt (F : Node → Node) (r : Ref) (n : Node) : nodeAt r (modifyAt F r n) = (nodeAt r n).map F := by
  induction r generalizing n with
  | nil => rfl
  | cons i r ih =>
    cases hc : n.children[i]? with
    | none => simp [modifyAt, nodeAt, hc]
    | some c =>
      have hlt : i < n.children.length := by
        rcases Nat.lt_or_ge i n.children.length with h | h
        · exact h
        · rw [List.getElem?_eq_none h] at hc; cases hc
      simp only [modifyAt, nodeAt, hc]
      rw [List.getElem?_set_self hlt]
      exact ih c

theorem namesAt_modifyAt {F : Node → Node} (hF : ∀ x, (F x).name = x.name) (r : Ref) (n : Node) :
    namesAt r (modifyAt F r n) = namesAt r n := by
  induction r generalizing n with
  | nil => rfl
  | cons i r ih =>
    cases hc : n.children[i]? with
    | none => simp [modifyAt, hc]
    | some c =>
      have hlt : i < n.children.length := by
        rcases Nat.lt_or_ge i n.children.length with h | h
        · exact h
        · rw [List.getElem?_eq_none h] at hc; cases hc
      simp only [modifyAt, namesAt, hc]
      rw [List.getElem?_set_self hlt]
      simp [ih, modify_name hF]

theorem Found.again {leaf : Bool} {p : List Str} {n n' : Node} {r : Ref} (h : Found leaf p n n' r) :
    Found leaf p n (modifyAt Node.incRead r n') r := by
  obtain ⟨L, m, h1, h2, h3, h4, h5⟩ := h
  refine ⟨L, m.incRead, ?_, ?_, h3, h4, ?_⟩
  · rw [namesAt_modifyAt incRead_name, h1]
  · rw [nodeAt_modifyAt, h2]; rfl
  · intro hlf F hF
    rw [modifyAt_twice]
    exact h5 hlf (fun x => F x.incRead) (fun x => hF _)

/-- nothing is found below -/
def Nothing (leaf : Bool) (p : List Str) (n : Node) : Prop :=
  (leaf = true → look p n = none) ∧ (leaf = false → first reqOf p n = none)

/-- what a lookup does -/
def Gets (leaf : Bool) (p : List Str) (f : Node → Option (Node × Option Ref)) : Prop :=
  ∀ n n' o, f n = some (n', o) →
    Inc leaf p n n' ∧ (∀ r, o = some r → Found leaf p n n' r) ∧ (o = none → Nothing leaf p n)

theorem innerHit_spec {leaf : Bool} {p : List Str} {c c1 : Node} {o : Option Ref} (hI : Inc leaf p c c1)
    (hF : ∀ r, o = some r → Found leaf p c c1 r) (hN : o = none → Nothing leaf p c) :
    Inc leaf p c (innerHit leaf (c1, o)).1 ∧
      (∀ r, (innerHit leaf (c1, o)).2 = some r → Found leaf p c (innerHit leaf (c1, o)).1 r ∧
        (leaf = true → look p c ≠ none)) ∧
      ((innerHit leaf (c1, o)).2 = none → Nothing leaf p c) := by
  cases o with
  | none => exact ⟨hI, (fun r h => by cases h), fun _ => hN rfl⟩
  | some r =>
    have hFr := hF r rfl
    obtain ⟨L, m, h1, h2, h3, h4, h5⟩ := hFr
    unfold innerHit
    dsimp only
    rw [h2]
    dsimp only
    split
    · rename_i hv
      refine ⟨inc_modify hI h1 h3, ?_, (fun h => by cases h)⟩
      intro r' hr'
      obtain rfl := Option.some.inj hr'
      refine ⟨(hF r rfl).again, fun hlf => ?_⟩
      rw [← h4 hlf]
      subst hlf
      intro h0
      rw [h0] at hv; cases hv
    · rename_i hv
      have hlf : leaf = true := by
        cases leaf with
        | true => rfl
        | false => simp at hv
      refine ⟨hI, (fun r h => by cases h), fun _ => ⟨fun _ => ?_, fun h => by rw [hlf] at h; cases h⟩⟩
      rw [← h4 hlf]
      simpa [hlf] using hv

theorem innerLoop_spec {leaf : Bool} {p : List Str} {f : Node → Option (Node × Option Ref)} (hf : Gets leaf p f) {nm : Str}
    {l l' : List Node} {o : Option Ref} (h : innerLoop f leaf nm l = some (l', o)) :
    F2 (IncC leaf nm p) l l' ∧
      (∀ r, o = some r → ∃ nw c ol c' r0, l = nw ++ c :: ol ∧ r = ol.length :: r0 ∧ patMatches c.name nm = true ∧
        Found leaf p c c' r0 ∧ Inc leaf p c c' ∧ (leaf = true → look p c ≠ none) ∧ l'[nw.length]? = some c' ∧
        ∀ d ∈ nw, patMatches d.name nm = true → Nothing leaf p d) ∧
      (o = none → ∀ d ∈ l, patMatches d.name nm = true → Nothing leaf p d) := by
  induction l generalizing l' o with
  | nil =>
    obtain ⟨rfl, rfl⟩ := Prod.mk.inj (Option.some.inj h)
    exact ⟨.nil, (fun r h => by cases h), (fun _ d hd => by cases hd)⟩
  | cons c older ih =>
    unfold innerLoop at h
    split at h
    · rename_i hm
      rw [Option.bind_eq_some_iff] at h
      obtain ⟨⟨c1, o1⟩, hfc, h⟩ := h
      rw [Option.map_eq_some_iff] at h
      obtain ⟨⟨l1, o2⟩, hl, h⟩ := h
      obtain ⟨rfl, rfl⟩ := Prod.mk.inj h
      obtain ⟨i1, i2, i3⟩ := ih hl
      obtain ⟨f1, f2, f3⟩ := hf c c1 o1 hfc
      obtain ⟨g1, g2, g3⟩ := innerHit_spec f1 f2 f3
      generalize innerHit leaf (c1, o1) = q at *
      obtain ⟨q1, q2⟩ := q
      dsimp only at *
      refine ⟨.cons ?_ i1, ?_, ?_⟩
      · unfold IncC; rw [if_pos hm]; exact g1
      · intro r hr
        cases q2 with
        | some r0 =>
          simp only [Option.map_some, Option.some_or, Option.some.injEq] at hr
          obtain ⟨ha, hb⟩ := g2 r0 rfl
          exact ⟨[], c, older, q1, r0, rfl, hr.symm, hm, ha, g1, hb, rfl, by simp⟩
        | none =>
          simp only [Option.map_none, Option.none_or] at hr
          obtain ⟨nw, d, ol, d', r0, e, h1, h2, h3, h4, h5, h6, h7⟩ := i2 r hr
          refine ⟨c :: nw, d, ol, d', r0, by rw [e]; rfl, h1, h2, h3, h4, h5, ?_, ?_⟩
          · simpa using h6
          · intro x hx
            rcases List.mem_cons.1 hx with rfl | hx
            · exact fun _ => g3 rfl
            · exact h7 x hx
      · intro ho d hd hdm
        rw [Option.or_eq_none_iff] at ho
        obtain ⟨ho1, ho2⟩ := ho
        rcases List.mem_cons.1 hd with rfl | hd
        · exact g3 (by simpa using ho1)
        · exact i3 ho2 d hd hdm
    · rename_i hm
      rw [Option.map_eq_some_iff] at h
      obtain ⟨⟨l1, o2⟩, hl, h⟩ := h
      obtain ⟨rfl, rfl⟩ := Prod.mk.inj h
      obtain ⟨i1, i2, i3⟩ := ih hl
      dsimp only at *
      refine ⟨.cons ?_ i1, ?_, ?_⟩
      · unfold IncC; rw [if_neg hm]
      · intro r hr
        obtain ⟨nw, d, ol, d', r0, e, h1, h2, h3, h4, h5, h6, h7⟩ := i2 r hr
        refine ⟨c :: nw, d, ol, d', r0, by rw [e]; rfl, h1, h2, h3, h4, h5, ?_, ?_⟩
        · simpa using h6
        · intro x hx
          rcases List.mem_cons.1 hx with rfl | hx
          · exact fun h => absurd h hm
          · exact h7 x hx
      · intro ho d hd hdm
        rcases List.mem_cons.1 hd with rfl | hd
        · exact absurd hdm hm
        · exact i3 ho d hd hdm

theorem reqOf_reads (n : Node) (k : Nat) : reqOf { n with reads := k } = reqOf n := rfl

theorem recursTryGet_spec (leaf : Bool) (rest : List Str) (nm : Str) : Gets leaf (nm :: rest) (recursTryGet leaf nm rest) := by
  induction rest generalizing nm with
  | nil => intro n n' o h; exact recursTryGet_last h
  | cons nm2 rest ih =>
    intro n n' o h
    unfold recursTryGet at h
    split at h
    · cases h
    split at h
    · cases h
    rw [Option.map_eq_some_iff] at h
    obtain ⟨⟨l', o'⟩, hl, h⟩ := h
    obtain ⟨rfl, rfl⟩ := Prod.mk.inj h
    obtain ⟨hf, hs, hn⟩ := innerLoop_spec (ih nm2) hl
    dsimp only at *
    refine ⟨inc_cons.2 ⟨_, rfl, ?_⟩, ?_, ?_⟩
    · have := hf.reverse
      rwa [List.reverse_reverse] at this
    · intro r hr
      obtain ⟨nw, c, ol, c', r0, e, rfl, hm, hF, hI, hv, hg, hnw⟩ := hs r hr
      rw [e] at hf
      obtain ⟨a', c'', b', rfl, fa, fc, fb⟩ := hf.split
      have hlen : nw.length = a'.length := fa.length.symm
      have hlen2 : ol.length = b'.length := fb.length.symm
      rw [hlen, getElem?_mid] at hg
      obtain rfl := Option.some.inj hg
      have er : (a' ++ c'' :: b').reverse = b'.reverse ++ c'' :: a'.reverse := by simp
      have hi : (b'.reverse ++ c'' :: a'.reverse)[b'.length]? = some c'' := by
        have := getElem?_mid b'.reverse a'.reverse c''
        rwa [List.length_reverse] at this
      obtain ⟨L, m, h1, h2, h3, h4, h5⟩ := hF
      have hn' : c''.name = c.name := inc_name hI
      have e' : n.children = ol.reverse ++ c :: nw.reverse := by
        rw [← List.reverse_reverse (as := n.children), e]; simp
      refine ⟨c.name :: L, m, ?_, ?_, by simp [strip, hm, h3], ?_, ?_⟩
      · rw [er, hlen2]
        simp [namesAt, hi, h1, hn']
      · rw [er, hlen2]
        simp [nodeAt, hi, h2]
      · intro hlf
        show m.value = first Node.value _ n
        have hnn : firstL Node.value nm (nm2 :: rest) nw.reverse = none := by
          unfold firstL
          rw [List.findSome?_eq_none_iff]
          intro d hd
          split
          · rename_i hdm
            exact (hnw d (by simpa using hd) hdm).1 hlf
          · rfl
        rw [first_cons, e', firstL_mid, hnn, if_pos hm, h4 hlf]
        have := hv hlf
        cases hl : look (nm2 :: rest) c with
        | none => exact absurd hl this
        | some w =>
          have hl' : first Node.value (nm2 :: rest) c = some w := hl
          simp [hl']
      · intro hlf F hF
        rw [er, hlen2]
        simp only [modifyAt, hi]
        rw [first_cons]
        show firstL reqOf nm (nm2 :: rest) ((b'.reverse ++ c'' :: a'.reverse).set b'.length _) = _
        have := set_mid b'.reverse a'.reverse c'' (modifyAt F r0 c'')
        rw [List.length_reverse] at this
        rw [this, firstL_mid]
        have hnn : firstL reqOf nm (nm2 :: rest) a'.reverse = none := by
          unfold firstL
          rw [List.findSome?_eq_none_iff]
          intro d' hd'
          split
          · rename_i hdm
            have hd' : d' ∈ a' := by simpa using hd'
            obtain ⟨j, hj⟩ := List.getElem?_of_mem hd'
            obtain ⟨d, hd, hr⟩ := fa.get hj
            have hdm' : patMatches d.name nm = true := by rw [← incC_name hr]; exact hdm
            unfold IncC at hr
            rw [if_pos hdm'] at hr
            rw [inc_first reqOf_children reqOf_reads hr]
            exact (hnw d (List.mem_of_getElem? hd) hdm').2 hlf
          · rfl
        rw [hnn, modify_name hF, hn', if_pos hm, h5 hlf F hF]
        simp [reqOf]
    · intro ho
      have hn := hn ho
      have hz : ∀ {α : Type} (g : Node → Option α), (∀ d, Nothing leaf (nm2 :: rest) d → first g (nm2 :: rest) d = none) →
          first g (nm :: nm2 :: rest) n = none := by
        intro α g hg
        rw [first_cons]
        unfold firstL
        rw [List.findSome?_eq_none_iff]
        intro d hd
        split
        · rename_i hdm
          exact hg d (hn d hd hdm)
        · rfl
      exact ⟨fun hlf => hz Node.value (fun d hd => hd.1 hlf), fun hlf => hz reqOf (fun d hd => hd.2 hlf)⟩

end Sparta.PTree
