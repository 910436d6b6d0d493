import Verif.PTree.Lemmas2
/-! Merging: values, conflicts, requirements. -/
namespace Sparta.PTree
open Sparta.Strings (Str)

/-- the value a path designates -/
abbrev look (p : List Str) (n : Node) : Option (Str × Str) := first Node.value p n

/-- whether the node a path designates is required -/
def reqOf (n : Node) : Option Bool := some (decide (0 < n.required))

theorem value_children (n : Node) (cs : List Node) : Node.value { n with children := cs } = Node.value n := rfl
theorem reqOf_children (n : Node) (cs : List Node) : reqOf { n with children := cs } = reqOf n := rfl

theorem modify_pay {F : Node → Node} {r : Ref} {n : Node} (h : r ≠ []) : pay (modifyAt F r n) = pay n := by
  cases r with
  | nil => exact absurd rfl h
  | cons i r => simp only [modifyAt]; split <;> rfl

theorem prio_ne {a : Str} {L : List Str} {r : Ref} {n : Node} (h : Prio (a :: L) r n) : r ≠ [] := by
  cases h; simp

theorem create_pay {req : Bool} {L : List Str} {n n' : Node} {o : Option Ref} (h : create req L n = some (n', o)) :
    pay n' = pay n := by
  obtain ⟨_, h2, h3, h4⟩ := create_name h
  simp [pay, h2, h3, h4]

theorem okP_single {a : Str} (h : OkName a) : OkP [a] := by
  intro x hx; rw [List.mem_singleton.1 hx]; exact h

theorem appendL_pay : (cs : List Node) → (n : Node) → (∀ c ∈ cs, (OkName c.name ∧ c.name ≠ []) ∧ WF c) → WF n →
    pay (appendL cs n).1 = pay n
  | [], n, _, _ => rfl
  | c :: cs, n, hcs, hn => by
    obtain ⟨⟨hc1, hc2⟩, hc3⟩ := hcs c (by simp)
    rcases appendL_cons (cs := cs) hn hc1 hc2 with ⟨n', r, m, hcr, hp, hw', hm, e⟩ | ⟨_, e⟩
    · have hw2 : WF (modifyAt (fun x => (append c x).1) r n') := by
        refine modify_inv (P := fun L _ => OkL L) (fun x => append_name c x) (prio_names hp) hw' ?_
        intro m' hm' hinv
        have hmw : WF m' := by
          obtain ⟨m2, hm2, hat⟩ := namesAt_at (prio_names hp)
          rw [hm'] at hm2
          obtain rfl := Option.some.inj hm2
          exact hat.wf hw'
        refine append_inv c m' _ hc3 hmw hinv (fun _ _ _ _ h => h) ?_
        intro L z hz _ x hx
        rcases List.mem_append.1 hx with hx | hx
        · rw [List.mem_singleton.1 hx]; exact ⟨hc1, hc2⟩
        · exact hc3 L z hz x hx
      rw [e]
      split
      · rw [appendL_pay cs _ (fun d hd => hcs d (by simp [hd])) hw2, modify_pay (prio_ne hp), create_pay hcr]
      · show pay (modifyAt _ r n') = _
        rw [modify_pay (prio_ne hp), create_pay hcr]
    · rw [e]

/-- the loop, one child, when all goes well -/
theorem appendL_step {c : Node} {cs : List Node} {n : Node} (hn : WF n) (hc : (OkName c.name ∧ c.name ≠ []) ∧ WF c)
    (h : (appendL (c :: cs) n).2 = true) :
    ∃ n' r m, create (decide (0 < c.required)) [c.name] n = some (n', some r) ∧ Prio [c.name] r n' ∧ nodeAt r n' = some m ∧
      WF m ∧ (append c m).2 = true ∧ WF (modifyAt (fun x => (append c x).1) r n') ∧
      appendL (c :: cs) n = appendL cs (modifyAt (fun x => (append c x).1) r n') ∧
      (modifyAt (fun x => (append c x).1) r n') = (appendL [c] n).1 := by
  obtain ⟨⟨hc1, hc2⟩, hc3⟩ := hc
  have e1 := appendL_cons (cs := []) hn hc1 hc2
  rcases appendL_cons (cs := cs) hn hc1 hc2 with ⟨n', r, m, hcr, hp, hw', hm, e⟩ | ⟨_, e⟩
  · have hmw : WF m := by
      obtain ⟨m2, hm2, hat⟩ := namesAt_at (prio_names hp)
      rw [hm] at hm2
      obtain rfl := Option.some.inj hm2
      exact hat.wf hw'
    by_cases hs : (append c m).2 = true
    · rw [if_pos hs] at e
      have e2 : appendL [c] n = (modifyAt (fun x => (append c x).1) r n', true) := by
        rcases e1 with ⟨n2, r2, m2, hcr2, _, _, hm2, e2⟩ | ⟨h1, _⟩
        · rw [hcr] at hcr2
          obtain ⟨rfl, h2⟩ := Prod.mk.inj (Option.some.inj hcr2)
          obtain rfl := Option.some.inj h2
          rw [hm] at hm2
          obtain rfl := Option.some.inj hm2
          rw [e2, if_pos hs]; rfl
        · rw [hcr] at h1; cases h1
      refine ⟨n', r, m, hcr, hp, hm, hmw, hs, ?_, e, by rw [e2]⟩
      have : WF (appendL [c] n).1 := by
        refine appendL_inv [c] n (fun L _ => OkL L) (fun d hd => ?_) hn hn (fun _ _ _ _ _ _ h => h) ?_
        · rw [List.mem_singleton.1 hd]; exact ⟨⟨hc1, hc2⟩, hc3⟩
        · intro d hd L z hz x hx
          rw [List.mem_singleton.1 hd] at hz hx
          rcases List.mem_cons.1 hx with rfl | hx
          · exact ⟨hc1, hc2⟩
          · exact hc3 L z hz x hx
      rw [e2] at this
      exact this
    · rw [if_neg hs] at e
      rw [e] at h
      cases h
  · rw [e] at h; cases h

theorem inherit_wf {z n : Node} (hn : WF n) : WF (inherit z.value z.required n) :=
  WF.mk (by rw [inherit_children]; exact fun c hc => ⟨hn.name hc, hn.child hc⟩)

theorem inherit_first {α : Type} (g : Node → Option α) (z n : Node) (b : Str) (p : List Str) :
    first g (b :: p) (inherit z.value z.required n) = first g (b :: p) n := by
  rw [first_cons, inherit_children]; rfl

theorem append_eq (o n : Node) : append o n = appendL o.children (inherit o.value o.required n) := by
  cases o; rfl

mutual
theorem append_look : (o n : Node) → WF o → WF n → (append o n).2 = true →
    ∀ p, look p (append o n).1 = (look p o).or (look p n)
  | ⟨nm, value, required, w, rd, children⟩, n => by
    intro ho hn h p
    have hin : WF (inherit value required n) := inherit_wf (z := ⟨nm, value, required, w, rd, children⟩) hn
    have hch : ∀ c ∈ children, (OkName c.name ∧ c.name ≠ []) ∧ WF c := fun c hc => ⟨ho.name hc, ho.child hc⟩
    change (appendL children (inherit value required n)).2 = true at h
    show look p (appendL children (inherit value required n)).1 = _
    cases p with
    | nil =>
      have := appendL_pay children _ hch hin
      have h1 : (appendL children (inherit value required n)).1.value = (inherit value required n).value :=
        congrArg Prod.fst this
      show (appendL children (inherit value required n)).1.value = _
      rw [h1]
      show _ = value.or n.value
      cases value <;> rfl
    | cons b p =>
      rw [appendL_look children _ hch hin h b p]
      congr 1
      exact inherit_first Node.value ⟨nm, value, required, w, rd, children⟩ n b p
theorem appendL_look : (cs : List Node) → (n : Node) → (∀ c ∈ cs, (OkName c.name ∧ c.name ≠ []) ∧ WF c) → WF n →
    (appendL cs n).2 = true → ∀ b p, look (b :: p) (appendL cs n).1 = (firstL Node.value b p cs).or (look (b :: p) n)
  | [], n => by intro _ _ _ b p; rfl
  | c :: cs, n => by
    intro hcs hn h b p
    obtain ⟨n', r, m, hcr, hp, hm, hmw, hs, hw2, e, _⟩ := appendL_step hn (hcs c (by simp)) h
    rw [e] at h ⊢
    rw [appendL_look cs _ (fun d hd => hcs d (by simp [hd])) hw2 h b p]
    rw [show c :: cs = [c] ++ cs from rfl, firstL_append, firstL_single, Option.or_assoc]
    congr 1
    have hc0 : first Node.value (b :: p) n' = first Node.value (b :: p) n :=
      create_first value_children hcr hn (okP_single (hcs c (by simp)).1.1) (b :: p) (Or.inl fun a => rfl)
    obtain ⟨m', hm', hcase⟩ := prio_first value_children hp (b :: p)
    rw [hm] at hm'
    obtain rfl := Option.some.inj hm'
    rcases hcase with ⟨hst, hF⟩ | ⟨q, rest, hst, hF0, hF⟩
    · have hb : ¬ patMatches c.name b = true := by
        intro hb
        simp [strip, hb] at hst
      show first Node.value (b :: p) (modifyAt _ r n') = _
      rw [if_neg hb, hF _ (fun x => append_name c x), hc0]; rfl
    · have hb : patMatches c.name b = true ∧ q = p := by
        simp only [strip] at hst
        split at hst
        · rename_i hb; exact ⟨hb, (Option.some.inj hst).symm⟩
        · cases hst
      obtain ⟨hb, rfl⟩ := hb
      have ha := append_look c m (hcs c (by simp)).2 hmw hs q
      simp only [look] at ha ⊢
      rw [if_pos hb, hF _ (fun x => append_name c x), ha, ← hc0, hF0, Option.or_assoc]
end

/-! ### values stay -/

/-- there is a value at the names `L` -/
def HasVal (n : Node) (L : List Str) : Prop := ∃ c, At n L c ∧ c.value.isSome = true

theorem hasVal_nil {n : Node} : HasVal n [] ↔ n.value.isSome = true := by
  constructor
  · rintro ⟨c, h, hv⟩; cases h; exact hv
  · intro h; exact ⟨n, .here n, h⟩

theorem hasVal_cons {n : Node} {a : Str} {L : List Str} :
    HasVal n (a :: L) ↔ ∃ c ∈ n.children, c.name = a ∧ HasVal c L := by
  constructor
  · rintro ⟨d, h, hv⟩
    cases h with
    | child hc hd => exact ⟨_, hc, rfl, d, hd, hv⟩
  · rintro ⟨c, hc, rfl, d, hd, hv⟩
    exact ⟨d, .child hc hd, hv⟩

theorem At.hasVal {n m : Node} {L K : List Str} (h : At n L m) (hv : HasVal m K) : HasVal n (L ++ K) := by
  induction h with
  | here => exact hv
  | child hc _ ih => exact hasVal_cons.2 ⟨_, hc, rfl, ih hv⟩

theorem create_hasVal {req : Bool} {L : List Str} {n n' : Node} {o : Option Ref}
    (h : create req L n = some (n', o)) (hw : WF n) (hL : OkP L) {K : List Str} (hv : HasVal n K) : HasVal n' K := by
  induction L generalizing n n' o K with
  | nil =>
    obtain ⟨rfl, _⟩ := Prod.mk.inj (Option.some.inj h)
    exact hv
  | cons a L ih =>
    have hname := create_name h
    cases K with
    | nil => rw [hasVal_nil] at hv ⊢; rw [hname.2.1]; exact hv
    | cons k K =>
      rw [hasVal_cons] at hv ⊢
      obtain ⟨d, hd, hdn, hdv⟩ := hv
      rcases create_cases h hw (hL a (by simp)) with ⟨_, rfl, _⟩ | ⟨_, pre, c, post, c', o', e, en, hn, hc, rfl, ho⟩ |
        ⟨_, _, c', o', hc, rfl, ho⟩
      · exact ⟨d, hd, hdn, hdv⟩
      · rw [e] at hd
        rcases List.mem_append.1 hd with hd | hd
        · exact ⟨d, by simp [hd], hdn, hdv⟩
        · rcases List.mem_cons.1 hd with rfl | hd
          · exact ⟨c', by simp, by rw [(create_name hc).1, hdn],
              ih hc (hw.child (by rw [e]; simp)) (fun x hx => hL x (by simp [hx])) hdv⟩
          · exact ⟨d, by simp [hd], hdn, hdv⟩
      · exact ⟨d, by simp [hd], hdn, hdv⟩

theorem mem_set_keep {α : Type} {l : List α} {i : Nat} {c d x : α} (hi : l[i]? = some c) (hx : x ∈ l) :
    x ∈ l.set i d ∨ x = c := by
  obtain ⟨j, hj⟩ := List.getElem?_of_mem hx
  by_cases e : j = i
  · subst e
    rw [hi] at hj
    exact Or.inr (Option.some.inj hj).symm
  · left
    refine List.mem_of_getElem? (i := j) ?_
    rw [List.getElem?_set_ne (Ne.symm e)]
    exact hj

theorem mem_set_new {α : Type} {l : List α} {i : Nat} {c d : α} (hi : l[i]? = some c) : d ∈ l.set i d := by
  refine List.mem_of_getElem? (i := i) ?_
  rw [List.getElem?_set_self']
  rw [hi]; rfl

theorem modify_hasVal {F : Node → Node} (hF : ∀ x, (F x).name = x.name) {r : Ref} {n : Node}
    (hf : ∀ m, nodeAt r n = some m → ∀ K, HasVal m K → HasVal (F m) K) {K : List Str} (hv : HasVal n K) :
    HasVal (modifyAt F r n) K := by
  induction r generalizing n K with
  | nil => exact hf n rfl K hv
  | cons i r ih =>
    simp only [modifyAt]
    cases hc : n.children[i]? with
    | none => exact hv
    | some c =>
      cases K with
      | nil => rw [hasVal_nil] at hv ⊢; exact hv
      | cons k K =>
        rw [hasVal_cons] at hv ⊢
        obtain ⟨d, hd, hdn, hdv⟩ := hv
        rcases mem_set_keep (d := modifyAt F r c) hc hd with h | rfl
        · exact ⟨d, h, hdn, hdv⟩
        · refine ⟨modifyAt F r d, mem_set_new hc, by rw [modify_name hF, hdn], ih ?_ hdv⟩
          intro m hm
          exact hf m (by simp [nodeAt, hc, hm])

/-- what is below the node changed is there under the longer names -/
theorem modify_hasVal_new {F : Node → Node} (hF : ∀ x, (F x).name = x.name) {r : Ref} {n m : Node} {L K : List Str}
    (hr : namesAt r n = some L) (hm : nodeAt r n = some m) (hv : HasVal (F m) K) : HasVal (modifyAt F r n) (L ++ K) := by
  induction r generalizing n L with
  | nil =>
    obtain rfl := Option.some.inj hr
    obtain rfl := Option.some.inj hm
    exact hv
  | cons i r ih =>
    unfold namesAt at hr
    unfold nodeAt at hm
    cases hc : n.children[i]? with
    | none => rw [hc] at hr; cases hr
    | some c =>
      rw [hc] at hr hm
      dsimp only at hr hm
      rw [Option.map_eq_some_iff] at hr
      obtain ⟨L', h', rfl⟩ := hr
      simp only [modifyAt, hc]
      rw [List.cons_append, hasVal_cons]
      exact ⟨_, mem_set_new hc, by rw [modify_name hF], ih h' hm⟩

theorem inherit_hasVal {z n : Node} {K : List Str} (h : HasVal n K) : HasVal (inherit z.value z.required n) K := by
  cases K with
  | nil =>
    rw [hasVal_nil] at h ⊢
    unfold inherit
    split
    · rfl
    · exact h
  | cons k K => rw [hasVal_cons] at h ⊢; rw [inherit_children]; exact h

mutual
theorem append_hasVal : (o n : Node) → WF o → WF n → (append o n).2 = true →
    (∀ K, HasVal n K → HasVal (append o n).1 K) ∧ (∀ K, HasVal o K → HasVal (append o n).1 K)
  | ⟨nm, value, required, w, rd, children⟩, n => by
    intro ho hn h
    have hin : WF (inherit value required n) := inherit_wf (z := ⟨nm, value, required, w, rd, children⟩) hn
    have hch : ∀ c ∈ children, (OkName c.name ∧ c.name ≠ []) ∧ WF c := fun c hc => ⟨ho.name hc, ho.child hc⟩
    change (appendL children (inherit value required n)).2 = true at h
    obtain ⟨h1, h2⟩ := appendL_hasVal children (inherit value required n) hch hin h
    refine ⟨fun K hK => h1 K (inherit_hasVal (z := ⟨nm, value, required, w, rd, children⟩) hK), fun K hK => ?_⟩
    cases K with
    | nil =>
      refine h1 [] ?_
      rw [hasVal_nil] at hK ⊢
      change value.isSome = true at hK
      cases value with
      | none => cases hK
      | some v => rfl
    | cons k K =>
      obtain ⟨c, hc, rfl, hcv⟩ := hasVal_cons.1 hK
      exact h2 c hc K hcv
theorem appendL_hasVal : (cs : List Node) → (n : Node) → (∀ c ∈ cs, (OkName c.name ∧ c.name ≠ []) ∧ WF c) → WF n →
    (appendL cs n).2 = true → (∀ K, HasVal n K → HasVal (appendL cs n).1 K) ∧
      (∀ c ∈ cs, ∀ K, HasVal c K → HasVal (appendL cs n).1 (c.name :: K))
  | [], n => by
    intro _ _ _
    refine ⟨fun K hK => hK, ?_⟩
    intro c hc; cases hc
  | c :: cs, n => by
    intro hcs hn h
    obtain ⟨n', r, m, hcr, hp, hm, hmw, hs, hw2, e, _⟩ := appendL_step hn (hcs c (by simp)) h
    rw [e] at h ⊢
    obtain ⟨a1, a2⟩ := append_hasVal c m (hcs c (by simp)).2 hmw hs
    obtain ⟨h1, h2⟩ := appendL_hasVal cs _ (fun d hd => hcs d (by simp [hd])) hw2 h
    refine ⟨fun K hK => h1 K ?_, fun d hd K hK => ?_⟩
    · refine modify_hasVal (fun x => append_name c x) ?_ (create_hasVal hcr hn (okP_single (hcs c (by simp)).1.1) hK)
      intro m' hm'
      rw [hm] at hm'
      obtain rfl := Option.some.inj hm'
      exact a1
    · rcases List.mem_cons.1 hd with rfl | hd
      · exact h1 _ (modify_hasVal_new (L := [d.name]) (fun x => append_name d x) (prio_names hp) hm (a2 K hK))
      · exact h2 d hd K hK
end

/-! ### when it does not work -/

theorem create_none {req : Bool} {L : List Str} {n : Node} (h : create req L n = none) (hw : WF n) (hL : OkP L) :
    ∃ K x, HasVal n K ∧ K ++ [x] <+: upToEmpty L := by
  induction L generalizing n with
  | nil => cases h
  | cons a L ih =>
    unfold create at h
    by_cases h0 : a = []
    · rw [if_pos h0] at h; cases h
    rw [if_neg h0] at h
    have hu : upToEmpty (a :: L) = a :: upToEmpty L := by simp [upToEmpty, h0]
    cases hp : prioIdx n.children a with
    | some i =>
      rw [hp] at h
      obtain ⟨pre, c, post, e, ei, en, hn⟩ := prioIdx_some hp (hL a (by simp)) (fun c hc => (hw.name hc).1)
      have hi : n.children[i]? = some c := by rw [e, ei]; exact getElem?_mid _ _ _
      dsimp only at h
      rw [hi] at h
      dsimp only at h
      rw [Option.map_eq_none_iff] at h
      obtain ⟨K, x, hK, hx⟩ := ih h (hw.child (by rw [e]; simp)) (fun x hx => hL x (by simp [hx]))
      refine ⟨a :: K, x, hasVal_cons.2 ⟨c, by rw [e]; simp, en, hK⟩, ?_⟩
      rw [hu, List.cons_append]
      exact List.cons_prefix_cons.2 ⟨rfl, hx⟩
    | none =>
      rw [hp] at h
      dsimp only at h
      by_cases hv : n.value.isSome = true
      · refine ⟨[], a, hasVal_nil.2 hv, ?_⟩
        rw [hu, List.nil_append]
        exact List.cons_prefix_cons.2 ⟨rfl, List.nil_prefix⟩
      rw [if_neg hv, Option.map_eq_none_iff] at h
      obtain ⟨K, x, hK, hx⟩ := ih h (wf_added a req) (fun x hx => hL x (by simp [hx]))
      exfalso
      cases K with
      | nil => rw [hasVal_nil] at hK; cases hK
      | cons k K =>
        obtain ⟨c, hc, _⟩ := hasVal_cons.1 hK
        cases hc

/-- a value at names that go on in the other tree -/
def Conflict (n o : Node) : Prop := ∃ K x, (HasVal n K ∨ HasVal o K) ∧ ∃ z, At o (K ++ [x]) z

theorem at_prefix {n d : Node} {L K : List Str} (h : At n (L ++ K) d) : ∃ c, At n L c := by
  induction L generalizing n with
  | nil => exact ⟨n, .here n⟩
  | cons a L ih =>
    cases h with
    | child hc hd =>
      obtain ⟨c, hc'⟩ := ih hd
      exact ⟨c, .child hc hc'⟩

mutual
theorem append_fail : (o n : Node) → WF o → WF n → (append o n).2 = false → Conflict n o
  | ⟨nm, value, required, w, rd, children⟩, n => by
    intro ho hn h
    have hin : WF (inherit value required n) := inherit_wf (z := ⟨nm, value, required, w, rd, children⟩) hn
    have hch : ∀ c ∈ children, (OkName c.name ∧ c.name ≠ []) ∧ WF c := fun c hc => ⟨ho.name hc, ho.child hc⟩
    change (appendL children (inherit value required n)).2 = false at h
    obtain ⟨K, x, hK, d, hd, K', z, e, hz⟩ := appendL_fail children (inherit value required n) hch hin h
    refine ⟨K, x, ?_, z, ?_⟩
    · rcases hK with hK | ⟨c, hc, K'', rfl, hK⟩
      · cases K with
        | nil =>
          rw [hasVal_nil] at hK
          cases value with
          | none => exact Or.inl (hasVal_nil.2 hK)
          | some v => exact Or.inr (hasVal_nil.2 rfl)
        | cons k K =>
          obtain ⟨c, hc, h1, h2⟩ := hasVal_cons.1 hK
          rw [inherit_children] at hc
          exact Or.inl (hasVal_cons.2 ⟨c, hc, h1, h2⟩)
      · exact Or.inr (hasVal_cons.2 ⟨c, hc, rfl, hK⟩)
    · rw [e]; exact .child hd hz
theorem appendL_fail : (cs : List Node) → (n : Node) → (∀ c ∈ cs, (OkName c.name ∧ c.name ≠ []) ∧ WF c) → WF n →
    (appendL cs n).2 = false → ∃ K x, (HasVal n K ∨ ∃ c ∈ cs, ∃ K', K = c.name :: K' ∧ HasVal c K') ∧
      ∃ d ∈ cs, ∃ K' z, K ++ [x] = d.name :: K' ∧ At d K' z
  | [], n => by intro _ _ h; cases h
  | c :: cs, n => by
    intro hcs hn h
    obtain ⟨⟨hc1, hc2⟩, hc3⟩ := hcs c (by simp)
    rcases appendL_cons (cs := cs) hn hc1 hc2 with ⟨n', r, m, hcr, hp, hw', hm, e⟩ | ⟨hcr, e⟩
    · by_cases hs : (append c m).2 = true
      · rw [if_pos hs] at e
        -- the tree after this child
        have hstep : (appendL [c] n).2 = true ∧ (appendL [c] n).1 = modifyAt (fun x => (append c x).1) r n' := by
          rcases appendL_cons (cs := []) hn hc1 hc2 with ⟨n2, r2, m2, hcr2, _, _, hm2, e2⟩ | ⟨h1, _⟩
          · rw [hcr] at hcr2
            obtain ⟨rfl, h2⟩ := Prod.mk.inj (Option.some.inj hcr2)
            obtain rfl := Option.some.inj h2
            rw [hm] at hm2
            obtain rfl := Option.some.inj hm2
            rw [e2, if_pos hs]; exact ⟨rfl, rfl⟩
          · rw [hcr] at h1; cases h1
        have hone : ∀ d ∈ [c], (OkName d.name ∧ d.name ≠ []) ∧ WF d := fun d hd => by
          rw [List.mem_singleton.1 hd]; exact ⟨⟨hc1, hc2⟩, hc3⟩
        have hw2 : WF (modifyAt (fun x => (append c x).1) r n') := by
          rw [← hstep.2]
          refine appendL_inv [c] n (fun L _ => OkL L) hone hn hn (fun _ _ _ _ _ _ h => h) ?_
          intro d hd L z hz x hx
          obtain ⟨d1, d2⟩ := hone d hd
          rcases List.mem_cons.1 hx with rfl | hx
          · exact d1
          · exact d2 L z hz x hx
        have hval : Inv (fun K x => x.1.isSome = true → HasVal n K ∨ ∃ K', K = c.name :: K' ∧ HasVal c K')
            (modifyAt (fun x => (append c x).1) r n') := by
          rw [← hstep.2]
          refine appendL_inv [c] n _ hone hn (fun L d hd hv => Or.inl ⟨d, hd, hv⟩) ?_ ?_
          · intro d hd L z y hz hy hv
            rw [List.mem_singleton.1 hd] at hz hy ⊢
            unfold inh at hv
            split at hv
            · rename_i w hw
              refine Or.inr ⟨L, rfl, z, hz, ?_⟩
              show (pay z).1.isSome = true
              rw [hw]; rfl
            · exact hy hv
          · intro d hd L z hz hv
            cases hv
        rw [e] at h
        obtain ⟨K, x, hK, d, hd, hrest⟩ := appendL_fail cs _ (fun d hd => hcs d (by simp [hd])) hw2 h
        refine ⟨K, x, ?_, d, by simp [hd], hrest⟩
        rcases hK with ⟨v, hv, hvs⟩ | ⟨d, hd, K', hK'⟩
        · rcases hval K v hv hvs with h1 | ⟨K', rfl, h2⟩
          · exact Or.inl h1
          · exact Or.inr ⟨c, by simp, K', rfl, h2⟩
        · exact Or.inr ⟨d, by simp [hd], K', hK'⟩
      · have hmw : WF m := by
          obtain ⟨m2, hm2, hat⟩ := namesAt_at (prio_names hp)
          rw [hm] at hm2
          obtain rfl := Option.some.inj hm2
          exact hat.wf hw'
        obtain ⟨K, x, hK, z, hz⟩ := append_fail c m hc3 hmw (by simpa using hs)
        refine ⟨c.name :: K, x, ?_, c, by simp, K ++ [x], z, rfl, hz⟩
        rcases hK with ⟨v, hv, hvs⟩ | hK
        · left
          obtain ⟨m2, hm2, hat⟩ := namesAt_at (prio_names hp)
          rw [hm] at hm2
          obtain rfl := Option.some.inj hm2
          have hn'v : HasVal n' (c.name :: K) := hat.hasVal ⟨v, hv, hvs⟩
          have : Inv (fun K x => x.1.isSome = true → HasVal n K) n' :=
            create_inv hcr hn (okP_single hc1) (fun L d hd hv => ⟨d, hd, hv⟩) (fun L' _ _ hv => by cases hv)
          obtain ⟨v', hv', hvs'⟩ := hn'v
          exact this _ v' hv' hvs'
        · exact Or.inr ⟨c, by simp, K, rfl, hK⟩
    · obtain ⟨K, x, hK, hx⟩ := create_none hcr hn (okP_single hc1)
      have : upToEmpty [c.name] = [c.name] := by simp [upToEmpty, hc2]
      rw [this] at hx
      refine ⟨K, x, Or.inl hK, c, by simp, [], c, ?_, .here c⟩
      rcases List.prefix_cons_iff.1 hx with h1 | ⟨t, ht, ht'⟩
      · simp at h1
      · rw [ht, List.prefix_nil.1 ht']
end

end Sparta.PTree
