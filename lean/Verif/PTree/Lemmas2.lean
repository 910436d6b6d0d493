import Verif.PTree.Lemmas
/-! Facts about all nodes of a tree, and how they are kept. -/
namespace Sparta.PTree
open Sparta.Strings (Str)

/-- what a node holds: value and origin, number of requirements, number of reads -/
abbrev Pay := Option (Str × Str) × Nat × Nat

def pay (n : Node) : Pay := (n.value, n.required, n.reads)

/-- all nodes satisfy `P` -/
def Inv (P : List Str → Pay → Prop) (n : Node) : Prop := ∀ L c, At n L c → P L (pay c)

theorem wf_iff (n : Node) : WF n ↔ Inv (fun L _ => OkL L) n := Iff.rfl

theorem inv_iff {P : List Str → Pay → Prop} {n : Node} :
    Inv P n ↔ P [] (pay n) ∧ ∀ c ∈ n.children, Inv (fun L => P (c.name :: L)) c := by
  constructor
  · intro h
    exact ⟨h [] n (.here n), fun c hc L d hd => h _ d (.child hc hd)⟩
  · rintro ⟨h1, h2⟩ L d hd
    cases hd with
    | here => exact h1
    | child hc hd => exact h2 _ hc _ _ hd

theorem inv_added {P : List Str → Pay → Prop} {a : Str} {req : Bool} (h : P [] (none, if req then 1 else 0, 0)) :
    Inv P (added a req) := inv_iff.2 ⟨h, fun c hc => by cases hc⟩

theorem create_inv {P : List Str → Pay → Prop} {req : Bool} {L : List Str} {n n' : Node} {o : Option Ref}
    (h : create req L n = some (n', o)) (hw : WF n) (hL : OkP L) (hi : Inv P n)
    (hf : ∀ L', L' ≠ [] → L' <+: upToEmpty L → P L' (none, if req then 1 else 0, 0)) : Inv P n' := by
  induction L generalizing n n' o P with
  | nil =>
    obtain ⟨rfl, _⟩ := Prod.mk.inj (Option.some.inj h)
    exact hi
  | cons a L ih =>
    rcases create_cases h hw (hL a (by simp)) with ⟨_, rfl, _⟩ | ⟨ha, pre, c, post, c', o', e, en, hn, hc, rfl, ho⟩ |
      ⟨ha, _, c', o', hc, rfl, ho⟩
    · exact hi
    · have hu : upToEmpty (a :: L) = a :: upToEmpty L := by simp [upToEmpty, ha]
      rw [inv_iff] at hi ⊢
      refine ⟨hi.1, fun d hd => ?_⟩
      have hd' : d ∈ pre ++ c' :: post := hd
      rcases List.mem_append.1 hd' with hd' | hd'
      · exact hi.2 d (by rw [e]; simp [hd'])
      · rcases List.mem_cons.1 hd' with rfl | hd'
        · rw [(create_name hc).1]
          refine ih hc (hw.child (by rw [e]; simp)) (fun x hx => hL x (by simp [hx])) (hi.2 c (by rw [e]; simp)) ?_
          intro L' h0 hp
          refine hf (c.name :: L') (by simp) ?_
          rw [hu, en]
          exact List.cons_prefix_cons.2 ⟨rfl, hp⟩
        · exact hi.2 d (by rw [e]; simp [hd'])
    · have hu : upToEmpty (a :: L) = a :: upToEmpty L := by simp [upToEmpty, ha]
      rw [inv_iff] at hi ⊢
      refine ⟨hi.1, fun d hd => ?_⟩
      have hd' : d ∈ n.children ++ [c'] := hd
      rcases List.mem_append.1 hd' with hd' | hd'
      · exact hi.2 d hd'
      · obtain rfl := List.mem_singleton.1 hd'
        rw [(create_name hc).1, added_name]
        refine ih hc (wf_added a req) (fun x hx => hL x (by simp [hx])) (inv_added (hf [a] (by simp) ?_)) ?_
        · rw [hu]; exact List.cons_prefix_cons.2 ⟨rfl, List.nil_prefix⟩
        · intro L' h0 hp
          refine hf (a :: L') (by simp) ?_
          rw [hu]
          exact List.cons_prefix_cons.2 ⟨rfl, hp⟩

theorem upToEmpty_ok {L : List Str} (h : OkP L) : OkL (upToEmpty L) := by
  intro x hx
  unfold upToEmpty at hx
  refine ⟨h x ((List.takeWhile_sublist _).subset hx), ?_⟩
  clear h
  induction L with
  | nil => cases hx
  | cons a L ih =>
    rw [List.takeWhile_cons] at hx
    split at hx
    · rename_i ha
      rcases List.mem_cons.1 hx with rfl | hx
      · simpa using ha
      · exact ih hx
    · cases hx

theorem create_wf {req : Bool} {L : List Str} {n n' : Node} {o : Option Ref}
    (h : create req L n = some (n', o)) (hw : WF n) (hL : OkP L) : WF n' := by
  refine create_inv (P := fun L _ => OkL L) h hw hL hw ?_
  intro L' _ hp x hx
  exact upToEmpty_ok hL x (hp.subset hx)

theorem At.wf {n m : Node} {L : List Str} (h : At n L m) (hw : WF n) : WF m := by
  induction h with
  | here => exact hw
  | child hc _ ih => exact ih (hw.child hc)

/-- the names of a node found or made -/
theorem prio_names {L : List Str} {r : Ref} {n : Node} (h : Prio L r n) : namesAt r n = some L := by
  induction h with
  | nil => rfl
  | @cons n c pre post a L r e en hn hp ih =>
    have hi : n.children[pre.length]? = some c := by rw [e]; exact getElem?_mid _ _ _
    simp [namesAt, hi, ih, en]

theorem namesAt_at {r : Ref} {n : Node} {L : List Str} (h : namesAt r n = some L) :
    ∃ m, nodeAt r n = some m ∧ At n L m := by
  induction r generalizing n L with
  | nil =>
    obtain rfl := Option.some.inj h
    exact ⟨n, rfl, .here n⟩
  | cons i r ih =>
    unfold namesAt at h
    cases hc : n.children[i]? with
    | none => rw [hc] at h; cases h
    | some c =>
      rw [hc] at h
      dsimp only at h
      rw [Option.map_eq_some_iff] at h
      obtain ⟨L', h', rfl⟩ := h
      obtain ⟨m, hm, ha⟩ := ih h'
      exact ⟨m, by simp [nodeAt, hc, hm], .child (List.mem_of_getElem? hc) ha⟩

theorem nodeAt_names {r : Ref} {n m : Node} (h : nodeAt r n = some m) : ∃ L, namesAt r n = some L := by
  induction r generalizing n with
  | nil => exact ⟨[], rfl⟩
  | cons i r ih =>
    unfold nodeAt at h
    cases hc : n.children[i]? with
    | none => rw [hc] at h; cases h
    | some c =>
      rw [hc] at h
      obtain ⟨L, hL⟩ := ih h
      exact ⟨c.name :: L, by simp [namesAt, hc, hL]⟩

theorem at_nodeAt {n m : Node} {L : List Str} (h : At n L m) : ∃ r, namesAt r n = some L ∧ nodeAt r n = some m := by
  induction h with
  | here n => exact ⟨[], rfl, rfl⟩
  | @child n c d L hc hd ih =>
    obtain ⟨r, h1, h2⟩ := ih
    obtain ⟨i, hi⟩ := List.getElem?_of_mem hc
    exact ⟨i :: r, by simp [namesAt, hi, h1], by simp [nodeAt, hi, h2]⟩

theorem modify_name {F : Node → Node} (hF : ∀ x, (F x).name = x.name) (r : Ref) (n : Node) :
    (modifyAt F r n).name = n.name := by
  cases r with
  | nil => exact hF n
  | cons j r =>
    simp only [modifyAt]
    split <;> rfl

theorem modify_inv {P : List Str → Pay → Prop} {F : Node → Node} (hF : ∀ x, (F x).name = x.name) {r : Ref} {n : Node} {L : List Str}
    (hr : namesAt r n = some L) (hi : Inv P n)
    (hf : ∀ m, nodeAt r n = some m → Inv (fun L' => P (L ++ L')) m → Inv (fun L' => P (L ++ L')) (F m)) :
    Inv P (modifyAt F r n) := by
  induction r generalizing n L P with
  | nil =>
    obtain rfl := Option.some.inj hr
    exact hf n rfl hi
  | cons i r ih =>
    unfold namesAt at hr
    cases hc : n.children[i]? with
    | none => rw [hc] at hr; cases hr
    | some c =>
      rw [hc] at hr
      dsimp only at hr
      rw [Option.map_eq_some_iff] at hr
      obtain ⟨L', h', rfl⟩ := hr
      simp only [modifyAt, hc]
      rw [inv_iff] at hi ⊢
      refine ⟨hi.1, fun d hd => ?_⟩
      rcases List.mem_or_eq_of_mem_set hd with hd | rfl
      · exact hi.2 d hd
      · rw [modify_name hF]
        refine ih h' (hi.2 c (List.mem_of_getElem? hc)) ?_
        intro m hm hinv
        exact hf m (by simp [nodeAt, hc, hm]) hinv

theorem modifyE_fst {f : Node → Node × Bool} {r : Ref} {n : Node} :
    (modifyAtE f r n).1 = modifyAt (fun m => (f m).1) r n := by
  induction r generalizing n with
  | nil => rfl
  | cons i r ih =>
    simp only [modifyAtE, modifyAt]
    cases hc : n.children[i]? with
    | none => rfl
    | some c => simp [ih]

theorem modifyE_snd {f : Node → Node × Bool} {r : Ref} {n m : Node} (h : nodeAt r n = some m) :
    (modifyAtE f r n).2 = (f m).2 := by
  induction r generalizing n with
  | nil =>
    obtain rfl := Option.some.inj h
    rfl
  | cons i r ih =>
    unfold nodeAt at h
    cases hc : n.children[i]? with
    | none => rw [hc] at h; cases h
    | some c =>
      rw [hc] at h
      simp only [modifyAtE, hc]
      exact ih h

/-! ### names -/

theorem nextName_noDot {s : Str} (h : '.' ∉ s) : nextName s = (s, none) := by
  unfold nextName
  have : s.findIdx? (· == '.') = none := by
    rw [List.findIdx?_eq_none_iff]
    intro c hc
    rw [beq_eq_false_iff_ne]
    rintro rfl
    exact h hc
  rw [this]

theorem names_single {s : Str} (h : '.' ∉ s) (h0 : s ≠ []) : names s = [s] := by
  unfold names
  rw [if_neg h0]
  split
  · rename_i r hr
    rw [nextName_noDot h] at hr; cases hr
  · rw [nextName_noDot h]

theorem okName_noDot {s : Str} (h : OkName s) : '.' ∉ s := fun hc => h '.' hc (by decide)

theorem names_ok {s : Str} (h : OkName s) (h0 : s ≠ []) : names s = [s] := names_single (okName_noDot h) h0

/-! ### appending another tree -/

theorem setValue_name (n : Node) (v : Str) (req : Bool) (o : Str) : (n.setValue v req o).name = n.name := rfl
theorem setValue_children (n : Node) (v : Str) (req : Bool) (o : Str) : (n.setValue v req o).children = n.children := rfl

theorem inherit_name (value : Option (Str × Str)) (required : Nat) (n : Node) : (inherit value required n).name = n.name := by
  unfold inherit; split <;> rfl

theorem inherit_children (value : Option (Str × Str)) (required : Nat) (n : Node) :
    (inherit value required n).children = n.children := by
  unfold inherit; split <;> rfl

mutual
theorem append_name : (o n : Node) → (append o n).1.name = n.name
  | ⟨nm, value, required, w, rd, children⟩, n => by
    show (appendL children (inherit value required n)).1.name = _
    rw [appendL_name children, inherit_name]
theorem appendL_name : (cs : List Node) → (n : Node) → (appendL cs n).1.name = n.name
  | [], n => rfl
  | c :: cs, n => by
    unfold appendL
    split
    · rename_i n' r hc
      dsimp only
      split
      · rw [appendL_name cs, modifyE_fst, modify_name (fun m => append_name c m), (create_name hc).1]
      · rw [modifyE_fst, modify_name (fun m => append_name c m), (create_name hc).1]
    · rename_i n' hc
      exact (create_name hc).1
    · rfl
end

/-- the loop, one child -/
theorem appendL_cons {c : Node} {cs : List Node} {n : Node} (hw : WF n) (hc : OkName c.name) (h0 : c.name ≠ []) :
    (∃ n' r m, create (decide (0 < c.required)) [c.name] n = some (n', some r) ∧ Prio [c.name] r n' ∧ WF n' ∧
      nodeAt r n' = some m ∧
      appendL (c :: cs) n = if (append c m).2 then appendL cs (modifyAt (fun x => (append c x).1) r n')
        else (modifyAt (fun x => (append c x).1) r n', false)) ∨
    (create (decide (0 < c.required)) [c.name] n = none ∧ appendL (c :: cs) n = (n, false)) := by
  rw [appendL, names_ok hc h0]
  cases hcr : create (decide (0 < c.required)) [c.name] n with
  | none => exact Or.inr ⟨rfl, rfl⟩
  | some q =>
    obtain ⟨n', o⟩ := q
    have hL : OkP [c.name] := by
      intro x hx
      rw [List.mem_singleton.1 hx]
      exact hc
    cases o with
    | none =>
      exfalso
      rcases create_cases hcr hw hc with ⟨h, _⟩ | ⟨_, pre, d, post, c', o', _, _, _, hd, _, ho⟩ | ⟨_, _, c', o', hd, _, ho⟩
      · exact h0 h
      · obtain ⟨_, rfl⟩ := Prod.mk.inj (Option.some.inj hd)
        cases ho
      · obtain ⟨_, rfl⟩ := Prod.mk.inj (Option.some.inj hd)
        cases ho
    | some r =>
      have hp := create_prio hcr hw hL
      obtain ⟨m, hm, _⟩ := namesAt_at (prio_names hp)
      refine Or.inl ⟨n', r, m, rfl, hp, create_wf hcr hw hL, hm, ?_⟩
      dsimp only
      rw [modifyE_snd hm]
      split
      · rw [modifyE_fst]
      · rename_i hf
        rw [← modifyE_fst]
        exact Prod.ext rfl (by rw [modifyE_snd hm]; simpa using hf)

def inh (z y : Pay) : Pay :=
  match z.1 with
  | some w => (some w, (if 0 < z.2.1 then y.2.1 + 1 else y.2.1), y.2.2)
  | none => y

theorem inherit_pay (z n : Node) : pay (inherit z.value z.required n) = inh (pay z) (pay n) := by
  obtain ⟨nm, v, rq, w, rd, ch⟩ := z
  cases v with
  | none => rfl
  | some p =>
    show (some (p.1, p.2), (if decide (0 < rq) = true then n.required + 1 else n.required), n.reads) =
      (some p, (if 0 < rq then n.required + 1 else n.required), n.reads)
    simp only [decide_eq_true_eq]

mutual
theorem append_inv : (o n : Node) → (P : List Str → Pay → Prop) → WF o → WF n → Inv P n →
    (∀ L z y, At o L z → P L y → P L (inh (pay z) y)) →
    (∀ L z, At o L z → L ≠ [] → P L (none, if 0 < z.required then 1 else 0, 0)) → Inv P (append o n).1
  | ⟨nm, value, required, w, rd, children⟩, n => by
    intro P ho hn hi h1 h2
    show Inv P (appendL children (inherit value required n)).1
    have hin : Inv P (inherit value required n) := by
      rw [inv_iff] at hi ⊢
      refine ⟨?_, ?_⟩
      · have := h1 [] _ (pay n) (.here _) hi.1
        rw [← inherit_pay] at this
        exact this
      · rw [inherit_children]; exact hi.2
    refine appendL_inv children _ P (fun c hc => ⟨ho.name hc, ho.child hc⟩) ?_ hin ?_ ?_
    · exact WF.mk (by rw [inherit_children]; exact fun c hc => ⟨hn.name hc, hn.child hc⟩)
    · intro c hc L z y hz
      exact h1 (c.name :: L) z y (.child hc hz)
    · intro c hc L z hz
      exact h2 (c.name :: L) z (.child hc hz) (by simp)
theorem appendL_inv : (cs : List Node) → (n : Node) → (P : List Str → Pay → Prop) →
    (∀ c ∈ cs, (OkName c.name ∧ c.name ≠ []) ∧ WF c) → WF n → Inv P n →
    (∀ c ∈ cs, ∀ L z y, At c L z → P (c.name :: L) y → P (c.name :: L) (inh (pay z) y)) →
    (∀ c ∈ cs, ∀ L z, At c L z → P (c.name :: L) (none, if 0 < z.required then 1 else 0, 0)) → Inv P (appendL cs n).1
  | [], n => by intro P _ _ hi _ _; exact hi
  | c :: cs, n => by
    intro P hcs hn hi h1 h2
    obtain ⟨⟨hc1, hc2⟩, hc3⟩ := hcs c (by simp)
    rcases appendL_cons (cs := cs) hn hc1 hc2 with ⟨n', r, m, hcr, hp, hw', hm, e⟩ | ⟨_, e⟩
    · have hL : OkP [c.name] := by
        intro x hx; rw [List.mem_singleton.1 hx]; exact hc1
      have hi' : Inv P n' := by
        refine create_inv hcr hn hL hi ?_
        intro L' h0 hpre
        have : upToEmpty [c.name] = [c.name] := by simp [upToEmpty, hc2]
        rw [this] at hpre
        have : L' = [c.name] := by
          rcases List.prefix_cons_iff.1 hpre with h | ⟨t, rfl, ht⟩
          · exact absurd h h0
          · rw [List.prefix_nil.1 ht]
        subst this
        have := h2 c (by simp) [] c (.here c)
        simpa using this
      have hmod : ∀ Q : List Str → Pay → Prop, Inv Q n' →
          (∀ L z y, At c L z → Q (c.name :: L) y → Q (c.name :: L) (inh (pay z) y)) →
          (∀ L z, At c L z → Q (c.name :: L) (none, if 0 < z.required then 1 else 0, 0)) →
          Inv Q (modifyAt (fun x => (append c x).1) r n') := by
        intro Q hQ q1 q2
        refine modify_inv (fun x => append_name c x) (prio_names hp) hQ ?_
        intro m' hm' hinv
        have hmw : WF m' := by
          rw [hm] at hm'
          obtain rfl := Option.some.inj hm'
          obtain ⟨m2, hm2, hat⟩ := namesAt_at (prio_names hp)
          rw [hm] at hm2
          obtain rfl := Option.some.inj hm2
          exact hat.wf hw'
        exact append_inv c m' (fun L' => Q ([c.name] ++ L')) hc3 hmw hinv (fun L z y hz => q1 L z y hz)
          (fun L z hz _ => q2 L z hz)
      have hi2 : Inv P (modifyAt (fun x => (append c x).1) r n') :=
        hmod P hi' (h1 c (by simp)) (h2 c (by simp))
      have hw2 : WF (modifyAt (fun x => (append c x).1) r n') := by
        refine hmod (fun L _ => OkL L) hw' (fun _ _ _ _ h => h) ?_
        intro L z hz x hx
        rcases List.mem_cons.1 hx with rfl | hx
        · exact ⟨hc1, hc2⟩
        · exact hc3 L z hz x hx
      rw [e]
      split
      · exact appendL_inv cs _ P (fun d hd => hcs d (by simp [hd])) hw2 hi2 (fun d hd => h1 d (by simp [hd]))
          (fun d hd => h2 d (by simp [hd]))
      · exact hi2
    · rw [e]; exact hi
end

theorem append_wf (o n : Node) (ho : WF o) (hn : WF n) : WF (append o n).1 :=
  append_inv o n (fun L _ => OkL L) ho hn hn (fun _ _ _ _ h => h) (fun L z hz _ => ho L z hz)

end Sparta.PTree
