import Verif.PTree.Lemmas4
/-! Requirements after a merge; `isRequired`, `isRead`, `unread`, `unrequire`. -/
namespace Sparta.PTree
open Sparta.Strings (Str)

/-! ### what `first` finds -/

theorem first_some {α : Type} {g : Node → Option α} {p : List Str} {n : Node} {w : α} (h : first g p n = some w) :
    ∃ L c, At n L c ∧ strip L p = some [] ∧ g c = some w := by
  induction p generalizing n with
  | nil => exact ⟨[], n, .here n, rfl, h⟩
  | cons b p ih =>
    rw [first_cons] at h
    unfold firstL at h
    obtain ⟨c, hc, h⟩ := List.exists_of_findSome?_eq_some h
    split at h
    · rename_i hm
      obtain ⟨L, d, h1, h2, h3⟩ := ih h
      exact ⟨c.name :: L, d, .child (by simpa using hc) h1, by simp [strip, hm, h2], h3⟩
    · cases h

theorem first_isSome {α : Type} {g : Node → Option α} {L p : List Str} {n c : Node} (h : At n L c)
    (hs : strip L p = some []) (hg : g c ≠ none) : first g p n ≠ none := by
  induction h generalizing p with
  | here n =>
    obtain rfl : p = [] := Option.some.inj hs
    exact hg
  | @child n c d L hc hd ih =>
    cases p with
    | nil => cases hs
    | cons b p =>
      simp only [strip] at hs
      split at hs
      · rename_i hm
        rw [first_cons]
        unfold firstL
        intro h0
        rw [List.findSome?_eq_none_iff] at h0
        have := h0 c (by simpa using hc)
        rw [if_pos hm] at this
        exact ih hs hg this
      · cases hs

theorem f2_set {R : Node → Node → Prop} (hr : ∀ c, R c c) {l : List Node} {i : Nat} {c d : Node} (hi : l[i]? = some c)
    (h : R c d) : F2 R l (l.set i d) := by
  have : F2 R l l := by
    clear hi
    induction l with
    | nil => exact .nil
    | cons x l ih => exact .cons (hr x) ih
  exact this.set hi h

theorem modify_first {α : Type} {g : Node → Option α} (hg : ∀ (n : Node) (cs : List Node), g { n with children := cs } = g n)
    {F : Node → Node} (hF : ∀ x, (F x).name = x.name) (hf : ∀ x q, first g q (F x) = first g q x) (r : Ref) (n : Node)
    (p : List Str) : first g p (modifyAt F r n) = first g p n := by
  induction r generalizing n p with
  | nil => exact hf n p
  | cons i r ih =>
    simp only [modifyAt]
    cases hc : n.children[i]? with
    | none => rfl
    | some c =>
      cases p with
      | nil => exact hg _ _
      | cons b p =>
        rw [first_cons, first_cons]
        exact firstL_f2 (f2_set (fun _ => ⟨rfl, rfl⟩) hc ⟨modify_name hF r c, ih c p⟩)

/-! ### requirements after a merge -/

mutual
theorem append_req : (o n : Node) → WF o → WF n → (append o n).2 = true → ∀ p,
    (∀ L z, At o L z → strip L p = some [] → 0 < z.required → z.value.isSome = true) →
    (first reqOf p o = some true → first reqOf p (append o n).1 = some true) ∧
    (first reqOf p o = none → first reqOf p (append o n).1 = first reqOf p n)
  | ⟨nm, value, required, w, rd, children⟩, n => by
    intro ho hn h p hV
    have hin : WF (inherit value required n) := inherit_wf (z := ⟨nm, value, required, w, rd, children⟩) hn
    have hch : ∀ c ∈ children, (OkName c.name ∧ c.name ≠ []) ∧ WF c := fun c hc => ⟨ho.name hc, ho.child hc⟩
    change (appendL children (inherit value required n)).2 = true at h
    cases p with
    | nil =>
      refine ⟨fun hr => ?_, (fun hr => by cases hr)⟩
      have hreq : 0 < required := by simpa [first, reqOf] using hr
      have hval := hV [] _ (.here _) rfl hreq
      obtain ⟨⟨v, og⟩, rfl⟩ := Option.isSome_iff_exists.1 hval
      have := appendL_pay children _ hch hin
      have h1 : (appendL children (inherit (some (v, og)) required n)).1.required = (inherit (some (v, og)) required n).required :=
        congrArg (fun q => q.2.1) this
      show some (decide (0 < (appendL children (inherit (some (v, og)) required n)).1.required)) = some true
      rw [h1]
      simp [inherit, Node.setValue, hreq]
    | cons b p =>
      have := appendL_req children _ hch hin h b p (fun c hc L z hz => hV (c.name :: L) z (.child hc hz))
      have e : first reqOf (b :: p) (inherit value required n) = first reqOf (b :: p) n :=
        inherit_first reqOf ⟨nm, value, required, w, rd, children⟩ n b p
      rw [e] at this
      exact this
theorem appendL_req : (cs : List Node) → (n : Node) → (∀ c ∈ cs, (OkName c.name ∧ c.name ≠ []) ∧ WF c) → WF n →
    (appendL cs n).2 = true → ∀ b p,
    (∀ c ∈ cs, ∀ L z, At c L z → strip (c.name :: L) (b :: p) = some [] → 0 < z.required → z.value.isSome = true) →
    (firstL reqOf b p cs = some true → first reqOf (b :: p) (appendL cs n).1 = some true) ∧
    (firstL reqOf b p cs = none → first reqOf (b :: p) (appendL cs n).1 = first reqOf (b :: p) n)
  | [], n => by
    intro _ _ _ b p _
    exact ⟨(fun h => by cases h), fun _ => rfl⟩
  | c :: cs, n => by
    intro hcs hn h b p hV
    obtain ⟨n', r, m, hcr, hp, hm, hmw, hs, hw2, e, _⟩ := appendL_step hn (hcs c (by simp)) h
    rw [e] at h ⊢
    obtain ⟨i1, i2⟩ := appendL_req cs _ (fun d hd => hcs d (by simp [hd])) hw2 h b p (fun d hd => hV d (by simp [hd]))
    rw [show c :: cs = [c] ++ cs from rfl, firstL_append, firstL_single]
    obtain ⟨m', hm', hcase⟩ := prio_first reqOf_children hp (b :: p)
    rw [hm] at hm'
    obtain rfl := Option.some.inj hm'
    have hIH : patMatches c.name b = true → _ := fun hb => append_req c m (hcs c (by simp)).2 hmw hs p
      (fun L z hz hst => hV c (by simp) L z hz (by simp [strip, hb, hst]))
    cases hl : firstL reqOf b p cs with
    | some x =>
      simp only [Option.some_or]
      refine ⟨fun hx => i1 (by rw [hl]; exact hx), (fun h => by cases h)⟩
    | none =>
      simp only [Option.none_or]
      rw [i2 hl]
      have hcov : (¬ patMatches c.name b = true ∨ p ≠ []) → first reqOf (b :: p) n' = first reqOf (b :: p) n := by
        intro hor
        refine create_first reqOf_children hcr hn (okP_single (hcs c (by simp)).1.1) (b :: p) (Or.inr ?_)
        rw [covers]
        rcases hor with hb | hp0
        · simp [hb]
        · cases p with
          | nil => exact absurd rfl hp0
          | cons => simp [covers]
      rcases hcase with ⟨hst, hF⟩ | ⟨q, rest, hst, hF0, hF⟩
      · have hb : ¬ patMatches c.name b = true := by
          intro hb
          simp [strip, hb] at hst
        rw [if_neg hb]
        refine ⟨(fun h => by cases h), fun _ => ?_⟩
        rw [hF _ (fun x => append_name c x), hcov (Or.inl hb)]
      · have hb : patMatches c.name b = true ∧ q = p := by
          simp only [strip] at hst
          split at hst
          · rename_i hb; exact ⟨hb, (Option.some.inj hst).symm⟩
          · cases hst
        obtain ⟨hb, rfl⟩ := hb
        obtain ⟨j1, j2⟩ := hIH hb
        rw [if_pos hb, hF _ (fun x => append_name c x)]
        refine ⟨fun hx => by rw [j1 hx]; rfl, fun hx => ?_⟩
        have hq : q ≠ [] := by
          intro h0; subst h0; cases hx
        rw [j2 hx, ← hF0, hcov (Or.inr hq)]
end

/-! ### making a node and changing it -/

def InvC (P : List Str → Pay → Prop) (n : Node) : Prop := ∀ c ∈ n.children, Inv (fun L => P (c.name :: L)) c

theorem inv_split {P : List Str → Pay → Prop} {n : Node} : Inv P n ↔ P [] (pay n) ∧ InvC P n := inv_iff

/-- the counts of a new node -/
def fresh (req : Bool) : Pay := (none, if req then 1 else 0, 0)

theorem create_mod_inv {P : List Str → Pay → Prop} {F : Node → Node} (hF : ∀ x, (F x).name = x.name) {req : Bool}
    {L : List Str} {n n' : Node} {r : Ref} (h : create req L n = some (n', some r)) (hw : WF n) (hL : OkP L)
    (hi : InvC P n) (hroot : P [] (pay n) ∨ pay n = fresh req) (hroot2 : L ≠ [] → P [] (pay n))
    (hf : ∀ L', L' ≠ [] → L' <+: L → L' ≠ L → P L' (fresh req))
    (hm : ∀ m, nodeAt r n' = some m → InvC (fun L' => P (L ++ L')) m → (P L (pay m) ∨ pay m = fresh req) →
      Inv (fun L' => P (L ++ L')) (F m)) : Inv P (modifyAt F r n') := by
  induction L generalizing n n' r P with
  | nil =>
    obtain ⟨rfl, h2⟩ := Prod.mk.inj (Option.some.inj h)
    obtain rfl := Option.some.inj h2
    exact hm n rfl hi hroot
  | cons a L ih =>
    rcases create_cases h hw (hL a (by simp)) with ⟨_, _, h2⟩ | ⟨_, pre, c, post, c', o', e, en, hn, hc, rfl, ho⟩ |
      ⟨_, _, c', o', hc, rfl, ho⟩
    · cases h2
    · cases o' with
      | none => cases ho
      | some r' =>
        obtain rfl := Option.some.inj ho
        have hi' : (pre ++ c' :: post)[pre.length]? = some c' := getElem?_mid _ _ _
        simp only [modifyAt, hi']
        rw [set_mid, inv_split]
        refine ⟨hroot2 (by simp), fun d hd => ?_⟩
        have hd' : d ∈ pre ++ modifyAt F r' c' :: post := hd
        rcases List.mem_append.1 hd' with hd' | hd'
        · exact hi d (by rw [e]; simp [hd'])
        · rcases List.mem_cons.1 hd' with rfl | hd'
          · rw [modify_name hF, (create_name hc).1]
            have hic := inv_split.1 (hi c (by rw [e]; simp))
            refine ih hc (hw.child (by rw [e]; simp)) (fun x hx => hL x (by simp [hx])) hic.2 (Or.inl hic.1)
              (fun _ => hic.1) ?_ ?_
            · intro L' h0 hp hne
              refine hf (c.name :: L') (by simp) ?_ ?_
              · rw [en]; exact List.cons_prefix_cons.2 ⟨rfl, hp⟩
              · rw [en]; exact fun h => hne (List.cons.inj h).2
            · intro m hm'
              rw [en]
              exact hm m (by simp [nodeAt, hi', hm'])
          · exact hi d (by rw [e]; simp [hd'])
    · cases o' with
      | none => cases ho
      | some r' =>
        obtain rfl := Option.some.inj ho
        have hi' : (n.children ++ [c'])[n.children.length]? = some c' := getElem?_mid n.children [] c'
        simp only [modifyAt, hi']
        rw [set_mid, inv_split]
        refine ⟨hroot2 (by simp), fun d hd => ?_⟩
        have hd' : d ∈ n.children ++ modifyAt F r' c' :: [] := hd
        rcases List.mem_append.1 hd' with hd' | hd'
        · exact hi d hd'
        · obtain rfl := List.mem_singleton.1 hd'
          rw [modify_name hF, (create_name hc).1, added_name]
          refine ih hc (wf_added a req) (fun x hx => hL x (by simp [hx])) (fun d hd => by cases hd) (Or.inr rfl) ?_ ?_ ?_
          · intro h0
            refine hf [a] (by simp) (List.cons_prefix_cons.2 ⟨rfl, List.nil_prefix⟩) ?_
            intro h; exact h0 (List.cons.inj h).2.symm
          · intro L' h0 hp hne
            refine hf (a :: L') (by simp) (List.cons_prefix_cons.2 ⟨rfl, hp⟩) ?_
            exact fun h => hne (List.cons.inj h).2
          · intro m hm'
            exact hm m (by simp [nodeAt, hi', hm'])

mutual
theorem append_inv2 : (o n : Node) → (P : List Str → Pay → Prop) → WF o → WF n → (append o n).2 = true → InvC P n →
    P [] (inh (pay o) (pay n)) →
    (∀ L z y, At o L z → L ≠ [] → (P L y ∨ y = fresh (decide (0 < z.required))) → P L (inh (pay z) y)) →
    Inv P (append o n).1
  | ⟨nm, value, required, w, rd, children⟩, n => by
    intro P ho hn h hi h0 h1
    change (appendL children (inherit value required n)).2 = true at h
    show Inv P (appendL children (inherit value required n)).1
    have hin : Inv P (inherit value required n) := by
      rw [inv_split]
      refine ⟨?_, ?_⟩
      · rw [← inherit_pay] at h0
        exact h0
      · unfold InvC; rw [inherit_children]; exact hi
    refine appendL_inv2 children _ P (fun c hc => ⟨ho.name hc, ho.child hc⟩) ?_ h hin ?_
    · exact inherit_wf (z := ⟨nm, value, required, w, rd, children⟩) hn
    · intro c hc L z y hz
      exact h1 (c.name :: L) z y (.child hc hz) (by simp)
theorem appendL_inv2 : (cs : List Node) → (n : Node) → (P : List Str → Pay → Prop) →
    (∀ c ∈ cs, (OkName c.name ∧ c.name ≠ []) ∧ WF c) → WF n → (appendL cs n).2 = true → Inv P n →
    (∀ c ∈ cs, ∀ L z y, At c L z → (P (c.name :: L) y ∨ y = fresh (decide (0 < z.required))) →
      P (c.name :: L) (inh (pay z) y)) → Inv P (appendL cs n).1
  | [], n => by intro P _ _ _ hi _; exact hi
  | c :: cs, n => by
    intro P hcs hn h hi h1
    obtain ⟨n', r, m, hcr, hp, hm, hmw, hs, hw2, e, _⟩ := appendL_step hn (hcs c (by simp)) h
    rw [e] at h ⊢
    refine appendL_inv2 cs _ P (fun d hd => hcs d (by simp [hd])) hw2 h ?_ (fun d hd => h1 d (by simp [hd]))
    rw [inv_split] at hi
    refine create_mod_inv (fun x => append_name c x) hcr hn (okP_single (hcs c (by simp)).1.1) hi.2 (Or.inl hi.1)
      (fun _ => hi.1) ?_ ?_
    · intro L' h0 hpre hne
      exfalso
      rcases List.prefix_cons_iff.1 hpre with h | ⟨t, rfl, ht⟩
      · exact h0 h
      · rw [List.prefix_nil.1 ht] at hne; exact hne rfl
    · intro m' hm' hic hor
      rw [hm] at hm'
      obtain rfl := Option.some.inj hm'
      refine append_inv2 c m (fun L' => P ([c.name] ++ L')) (hcs c (by simp)).2 hmw hs hic ?_ ?_
      · exact h1 c (by simp) [] c (pay m) (.here c) hor
      · intro L z y hz _ hy
        exact h1 c (by simp) L z y hz hy
end

/-! ### unrequire -/

theorem unrequireN_name (n : Node) : (unrequireN n).name = n.name := by cases n; rfl

theorem unrequireL_f2 {R : Node → Node → Prop} (h : ∀ c, R c (unrequireN c)) (cs : List Node) : F2 R cs (unrequireL cs) := by
  induction cs with
  | nil => exact .nil
  | cons c cs ih => exact .cons (h c) ih

theorem unreq_look (n : Node) (p : List Str) : first Node.value p (unrequireN n) = first Node.value p n := by
  induction p generalizing n with
  | nil => cases n; rfl
  | cons b p ih =>
    rw [first_cons, first_cons]
    have : (unrequireN n).children = unrequireL n.children := by cases n; rfl
    rw [this]
    exact firstL_f2 (unrequireL_f2 (fun c => ⟨unrequireN_name c, ih c⟩) _)

mutual
theorem unreq_inv : (n : Node) → (P : List Str → Pay → Prop) → Inv P n → (∀ L y, P L y → P L (y.1, 0, y.2.2)) →
    Inv P (unrequireN n)
  | ⟨nm, value, required, w, rd, children⟩ => by
    intro P hi h
    rw [inv_iff] at hi ⊢
    exact ⟨h [] _ hi.1, unreqL_inv children P hi.2 h⟩
theorem unreqL_inv : (cs : List Node) → (P : List Str → Pay → Prop) → (∀ c ∈ cs, Inv (fun L => P (c.name :: L)) c) →
    (∀ L y, P L y → P L (y.1, 0, y.2.2)) → ∀ c ∈ unrequireL cs, Inv (fun L => P (c.name :: L)) c
  | [] => by intro P _ _ c hc; cases hc
  | d :: cs => by
    intro P hi h c hc
    rcases List.mem_cons.1 hc with rfl | hc
    · rw [unrequireN_name]
      exact unreq_inv d _ (hi d (by simp)) (fun L y => h _ y)
    · exact unreqL_inv cs P (fun c hc => hi c (by simp [hc])) h c hc
end

theorem unreq_hasVal {n : Node} {K : List Str} (h : HasVal n K) : HasVal (unrequireN n) K := by
  induction K generalizing n with
  | nil =>
    rw [hasVal_nil] at h ⊢
    cases n; exact h
  | cons a K ih =>
    rw [hasVal_cons] at h ⊢
    obtain ⟨c, hc, rfl, hv⟩ := h
    obtain ⟨nm, value, required, w, rd, children⟩ := n
    obtain ⟨i, hi⟩ := List.getElem?_of_mem hc
    have := unrequireL_f2 (R := fun c d => d = unrequireN c) (fun _ => rfl) children
    obtain ⟨d, hd, rfl⟩ := this.get' hi
    exact ⟨_, List.mem_of_getElem? hd, unrequireN_name c, ih hv⟩

/-! ### isRequired and isRead -/

theorem lastRequired_eq {nm : Str} (hn : hasWild nm = false) (cs : List Node) :
    lastRequired nm cs.reverse = firstL reqOf nm [] cs := by
  unfold firstL
  generalize cs.reverse = l
  induction l with
  | nil => rfl
  | cons c l ih =>
    rw [List.findSome?_cons, lastRequired, hn]
    by_cases h : patMatches c.name nm = true
    · simp [h, first, reqOf]
    · simp [h, ih]

theorem innerRequired_eq {f : Node → Option (Option Bool)} {nm : Str} {p : List Str}
    (hf : ∀ c, f c = some (first reqOf p c)) (cs : List Node) :
    innerRequired f nm cs.reverse = some (firstL reqOf nm p cs) := by
  unfold firstL
  generalize cs.reverse = l
  induction l with
  | nil => rfl
  | cons c l ih =>
    rw [List.findSome?_cons, innerRequired, hf]
    by_cases h : patMatches c.name nm = true
    · rw [if_pos h, if_pos h]
      cases first reqOf p c with
      | none => exact ih
      | some b => rfl
    · rw [if_neg h, if_neg h]; exact ih

/-- names a lookup accepts -/
def Concrete (p : List Str) : Prop := ∀ x ∈ p, x ≠ [] ∧ hasWild x = false

theorem recursIsRequired_eq {nm : Str} {rest : List Str} (h : Concrete (nm :: rest)) (n : Node) :
    recursIsRequired nm rest n = some (first reqOf (nm :: rest) n) := by
  induction rest generalizing nm n with
  | nil => rw [recursIsRequired, lastRequired_eq (h nm (by simp)).2]; rfl
  | cons nm2 rest ih =>
    have h' : Concrete (nm2 :: rest) := fun x hx => h x (List.mem_cons_of_mem _ hx)
    rw [recursIsRequired, if_neg (h' nm2 (by simp)).1, innerRequired_eq (ih h')]
    rfl

theorem isRequired_eq {path : Str} (h : Concrete (names path)) (n : Node) :
    isRequired path n = first reqOf (names path) n := by
  unfold isRequired
  cases hp : names path with
  | nil => rfl
  | cons nm rest =>
    rw [hp] at h
    dsimp only
    rw [if_neg (h nm (by simp)).1, recursIsRequired_eq h]
    cases first reqOf (nm :: rest) n <;> rfl

/-- a value that has been read -/
def readOf (n : Node) : Option Unit := if n.value.isSome && decide (0 < n.reads) then some () else none

theorem lastRead_eq (nm : Str) (cs : List Node) : lastRead nm cs.reverse = (firstL readOf nm [] cs).isSome := by
  unfold firstL
  generalize cs.reverse = l
  induction l with
  | nil => rfl
  | cons c l ih =>
    rw [List.findSome?_cons, lastRead, ih]
    by_cases h : patMatches c.name nm = true
    · rw [if_pos h, h]
      simp only [first, readOf]
      by_cases h2 : (c.value.isSome && decide (0 < c.reads)) = true
      · simp [h2]
      · simp [h2]
    · simp [h]

theorem innerRead_eq {f : Node → Option Bool} {nm : Str} {p : List Str}
    (hf : ∀ c, f c = some (first readOf p c).isSome) (cs : List Node) :
    innerRead f nm cs.reverse = some (firstL readOf nm p cs).isSome := by
  unfold firstL
  generalize cs.reverse = l
  induction l with
  | nil => rfl
  | cons c l ih =>
    rw [List.findSome?_cons, innerRead, hf]
    by_cases h : patMatches c.name nm = true
    · rw [if_pos h, if_pos h]
      cases first readOf p c with
      | none => exact ih
      | some b => rfl
    · rw [if_neg h, if_neg h]; exact ih

theorem recursIsRead_eq {nm : Str} {rest : List Str} (h : Concrete (nm :: rest)) (n : Node) :
    recursIsRead nm rest n = some (first readOf (nm :: rest) n).isSome := by
  induction rest generalizing nm n with
  | nil =>
    rw [recursIsRead, lastRead_eq, if_neg (by rw [(h nm (by simp)).2]; simp)]; rfl
  | cons nm2 rest ih =>
    have h' : Concrete (nm2 :: rest) := fun x hx => h x (List.mem_cons_of_mem _ hx)
    rw [recursIsRead, if_neg (h' nm2 (by simp)).1, innerRead_eq (ih h'), if_neg (by rw [(h nm (by simp)).2]; simp)]
    rfl

theorem isRead_eq {path : Str} (h : Concrete (names path)) (n : Node) :
    isRead path n = some (first readOf (names path) n).isSome := by
  unfold isRead
  cases hp : names path with
  | nil =>
    simp only [first, readOf]
    by_cases h2 : (n.value.isSome && decide (0 < n.reads)) = true
    · simp [h2]
    · simp [h2]
  | cons nm rest =>
    rw [hp] at h
    dsimp only
    rw [if_neg (h nm (by simp)).1, recursIsRead_eq h]

/-! ### lookups do not fail on such names -/

theorem innerLoop_ok {f : Node → Option (Node × Option Ref)} (hf : ∀ c, f c ≠ none) (leaf : Bool) (nm : Str) (l : List Node) :
    innerLoop f leaf nm l ≠ none := by
  induction l with
  | nil => simp [innerLoop]
  | cons c l ih =>
    unfold innerLoop
    obtain ⟨q, hq⟩ := Option.ne_none_iff_exists'.1 ih
    obtain ⟨p, hp⟩ := Option.ne_none_iff_exists'.1 (hf c)
    rw [hq, hp]
    split <;> simp

theorem recursTryGet_ok {nm : Str} {rest : List Str} (h : Concrete (nm :: rest)) (leaf : Bool) (n : Node) :
    recursTryGet leaf nm rest n ≠ none := by
  induction rest generalizing nm n with
  | nil =>
    rw [recursTryGet, if_neg (by rw [(h nm (by simp)).2]; simp)]
    simp
  | cons nm2 rest ih =>
    have h' : Concrete (nm2 :: rest) := fun x hx => h x (List.mem_cons_of_mem _ hx)
    rw [recursTryGet, if_neg (by rw [(h nm (by simp)).2]; simp), if_neg (h' nm2 (by simp)).1]
    have := innerLoop_ok (ih h') leaf nm n.children.reverse
    obtain ⟨q, hq⟩ := Option.ne_none_iff_exists'.1 this
    rw [hq]; simp

theorem tryGet_ok {path : Str} (h : Concrete (names path)) (leaf : Bool) (n : Node) : tryGet path leaf n ≠ none := by
  unfold tryGet
  cases hp : names path with
  | nil => simp
  | cons nm rest =>
    rw [hp] at h
    dsimp only
    rw [if_neg (h nm (by simp)).1]
    exact recursTryGet_ok h leaf n

/-! ### unread -/

theorem mem_unreadL (cs : List Node) (i : Nat) (r : Ref) :
    r ∈ unreadL i cs ↔ ∃ j c r', cs[j]? = some c ∧ r = (i + j) :: r' ∧ r' ∈ unread c := by
  induction cs generalizing i with
  | nil =>
    constructor
    · intro h; cases h
    · rintro ⟨j, c, r', hj, _⟩; cases hj
  | cons c cs ih =>
    rw [unreadL, List.mem_append, ih (i + 1), List.mem_map]
    constructor
    · rintro (⟨j, d, r', hj, rfl, h⟩ | ⟨r', h, rfl⟩)
      · exact ⟨j + 1, d, r', hj, by rw [Nat.add_assoc, Nat.add_comm 1 j], h⟩
      · exact ⟨0, c, r', rfl, rfl, h⟩
    · rintro ⟨j, d, r', hj, rfl, h⟩
      cases j with
      | zero =>
        obtain rfl := Option.some.inj hj
        exact Or.inr ⟨r', h, rfl⟩
      | succ j =>
        exact Or.inl ⟨j, d, r', hj, by rw [Nat.add_assoc, Nat.add_comm 1 j], h⟩

theorem mem_unread (n : Node) (r : Ref) :
    r ∈ unread n ↔ ∃ c, nodeAt r n = some c ∧ c.value.isSome = true ∧ c.reads = 0 := by
  have e : ∀ n : Node, unread n = (if n.value.isSome && n.reads == 0 then [[]] else []) ++ unreadL 0 n.children := by
    intro n; cases n; rfl
  induction r generalizing n with
  | nil =>
    rw [e, List.mem_append, mem_unreadL]
    constructor
    · rintro (h | ⟨j, c, r', hj, h, hr⟩)
      · split at h
        · rename_i hv
          exact ⟨n, rfl, by simpa using hv⟩
        · cases h
      · cases h
    · rintro ⟨c, hc, hv, h0⟩
      obtain rfl := Option.some.inj hc
      refine Or.inl ?_
      rw [if_pos (by simp only [Bool.and_eq_true, beq_iff_eq]; exact ⟨hv, h0⟩)]
      simp
  | cons i r ih =>
    rw [e, List.mem_append, mem_unreadL, nodeAt]
    constructor
    · rintro (h | ⟨j, c, r', hj, h, hr⟩)
      · split at h
        · cases List.mem_singleton.1 h
        · cases h
      · obtain ⟨rfl, rfl⟩ := List.cons.inj h
        rw [Nat.zero_add, hj]
        exact (ih c).1 hr
    · rintro ⟨c, hc, h⟩
      cases hd : n.children[i]? with
      | none => rw [hd] at hc; cases hc
      | some d =>
        rw [hd] at hc
        exact Or.inr ⟨i, d, r, hd, by simp, (ih d).2 ⟨c, hc, h⟩⟩

theorem unreadL_nodup {cs : List Node} (h : ∀ c ∈ cs, (unread c).Nodup) (i : Nat) : (unreadL i cs).Nodup := by
  induction cs generalizing i with
  | nil => exact List.nodup_nil
  | cons c cs ih =>
    rw [unreadL, List.nodup_append]
    refine ⟨ih (fun d hd => h d (by simp [hd])) _, ?_, ?_⟩
    · have := h c (by simp)
      exact List.Pairwise.map _ (fun a b hab he => hab (List.cons.inj he).2) this
    · intro a ha b hb hab
      obtain ⟨j, d, r', _, rfl, _⟩ := (mem_unreadL cs (i + 1) a).1 ha
      obtain ⟨r2, _, rfl⟩ := List.mem_map.1 hb
      have := (List.cons.inj hab).1
      omega

mutual
theorem unread_nodup : (n : Node) → (unread n).Nodup
  | ⟨nm, value, required, w, rd, children⟩ => by
    show ((if value.isSome && rd == 0 then [[]] else []) ++ unreadL 0 children).Nodup
    rw [List.nodup_append]
    refine ⟨?_, unreadL_nodup (unreads_nodup children) 0, ?_⟩
    · split <;> simp
    · intro a ha b hb hab
      obtain ⟨j, d, r', _, rfl, _⟩ := (mem_unreadL children 0 b).1 hb
      split at ha
      · rw [List.mem_singleton.1 ha] at hab; cases hab
      · cases ha
theorem unreads_nodup : (cs : List Node) → ∀ c ∈ cs, (unread c).Nodup
  | [] => by intro c hc; cases hc
  | d :: cs => by
    intro c hc
    rcases List.mem_cons.1 hc with h | hc
    · rw [h]; exact unread_nodup d
    · exact unreads_nodup cs c hc
end

end Sparta.PTree
