import Verif.PTree.Pattern
/-! The node a path designates: making nodes and writing to them. -/
namespace Sparta.PTree
open Sparta.Strings (Str)

/-- node `c` can be reached from `n` over nodes of the names `L` -/
inductive At : Node → List Str → Node → Prop
  | here (n : Node) : At n [] n
  | child {n c d : Node} {L : List Str} : c ∈ n.children → At c L d → At n (c.name :: L) d

/-- names are legal -/
def OkL (L : List Str) : Prop := ∀ x ∈ L, OkName x ∧ x ≠ []

/-- all names below are legal -/
def WF (n : Node) : Prop := ∀ L c, At n L c → OkL L

theorem WF.child {n c : Node} (h : WF n) (hc : c ∈ n.children) : WF c := by
  intro L d hd x hx
  exact h _ _ (.child hc hd) x (by simp [hx])

theorem WF.name {n c : Node} (h : WF n) (hc : c ∈ n.children) : OkName c.name ∧ c.name ≠ [] :=
  h _ _ (.child hc (.here c)) c.name (by simp)

theorem WF.mk {n : Node} (h : ∀ c ∈ n.children, (OkName c.name ∧ c.name ≠ []) ∧ WF c) : WF n := by
  intro L d hd
  cases hd with
  | here => intro x hx; cases hx
  | child hc hd =>
    intro x hx
    rcases List.mem_cons.1 hx with rfl | hx
    · exact (h _ hc).1
    · exact (h _ hc).2 _ _ hd x hx

/-- the first thing of interest at the end of a path, newest first -/
def first {α : Type} (g : Node → Option α) : List Str → Node → Option α
  | [], n => g n
  | b :: p, n => n.children.reverse.findSome? fun c => if patMatches c.name b then first g p c else none

/-- the same for a list of children -/
def firstL {α : Type} (g : Node → Option α) (b : Str) (p : List Str) (cs : List Node) : Option α :=
  cs.reverse.findSome? fun c => if patMatches c.name b then first g p c else none

theorem first_cons {α : Type} (g : Node → Option α) (b : Str) (p : List Str) (n : Node) :
    first g (b :: p) n = firstL g b p n.children := rfl

theorem firstL_nil {α : Type} (g : Node → Option α) (b : Str) (p : List Str) : firstL g b p [] = none := rfl

theorem firstL_append {α : Type} (g : Node → Option α) (b : Str) (p : List Str) (xs ys : List Node) :
    firstL g b p (xs ++ ys) = (firstL g b p ys).or (firstL g b p xs) := by
  unfold firstL
  rw [List.reverse_append, List.findSome?_append]

theorem firstL_single {α : Type} (g : Node → Option α) (b : Str) (p : List Str) (c : Node) :
    firstL g b p [c] = if patMatches c.name b then first g p c else none := by
  unfold firstL
  simp only [List.reverse_cons, List.reverse_nil, List.nil_append, List.findSome?_cons, List.findSome?_nil]
  split <;> simp_all

theorem firstL_mid {α : Type} (g : Node → Option α) (b : Str) (p : List Str) (xs ys : List Node) (c : Node) :
    firstL g b p (xs ++ c :: ys) =
      (firstL g b p ys).or ((if patMatches c.name b then first g p c else none).or (firstL g b p xs)) := by
  rw [show xs ++ c :: ys = (xs ++ [c]) ++ ys by simp, firstL_append, firstL_append, firstL_single]

theorem firstL_none {α : Type} {g : Node → Option α} {b : Str} {p : List Str} {cs : List Node}
    (h : ∀ c ∈ cs, ¬ patMatches c.name b = true) : firstL g b p cs = none := by
  unfold firstL
  rw [List.findSome?_eq_none_iff]
  intro c hc
  rw [if_neg (h c (by simpa using hc))]

/-! ### the child used for a name -/

theorem prioLoop_some {nm : Str} {w : Bool} {l : List Node} {i : Nat} (h : prioLoop nm w l = some i) :
    ∃ newer c older, l = newer ++ c :: older ∧ i = older.length ∧ c.name = nm ∧
      ∀ d ∈ newer, if w then hasWild d.name = false ∧ ¬ patMatches nm d.name = true else ¬ patMatches d.name nm = true := by
  induction l with
  | nil => cases h
  | cons c older ih =>
    unfold prioLoop at h
    by_cases hc : c.name = nm
    · rw [if_pos hc] at h
      exact ⟨[], c, older, rfl, (Option.some.inj h).symm, hc, by simp⟩
    · rw [if_neg hc] at h
      cases w with
      | true =>
        rw [if_pos rfl] at h
        by_cases h1 : hasWild c.name = true
        · rw [if_pos h1] at h; cases h
        rw [if_neg h1] at h
        by_cases h2 : patMatches nm c.name = true
        · rw [if_pos h2] at h; cases h
        rw [if_neg h2] at h
        obtain ⟨nw, d, ol, e, ei, en, hn⟩ := ih h
        refine ⟨c :: nw, d, ol, by rw [e]; rfl, ei, en, ?_⟩
        intro x hx
        rcases List.mem_cons.1 hx with rfl | hx
        · rw [if_pos rfl]; exact ⟨by simpa using h1, h2⟩
        · exact hn x hx
      | false =>
        rw [if_neg (by simp)] at h
        by_cases h2 : patMatches c.name nm = true
        · rw [if_pos h2] at h; cases h
        rw [if_neg h2] at h
        obtain ⟨nw, d, ol, e, ei, en, hn⟩ := ih h
        refine ⟨c :: nw, d, ol, by rw [e]; rfl, ei, en, ?_⟩
        intro x hx
        rcases List.mem_cons.1 hx with rfl | hx
        · rw [if_neg (by simp)]; exact h2
        · exact hn x hx

/-- a child found for a name is the newest one that has to do with the name -/
theorem prioIdx_some {cs : List Node} {nm : Str} {i : Nat} (h : prioIdx cs nm = some i) (hok : OkName nm)
    (hcs : ∀ c ∈ cs, OkName c.name) :
    ∃ pre c post, cs = pre ++ c :: post ∧ i = pre.length ∧ c.name = nm ∧
      ∀ d ∈ post, ∀ b, patMatches nm b = true → ¬ patMatches d.name b = true := by
  obtain ⟨nw, c, ol, e, ei, en, hn⟩ := prioLoop_some h
  have e' : cs = ol.reverse ++ c :: nw.reverse := by
    rw [← List.reverse_reverse (as := cs), e]; simp
  refine ⟨ol.reverse, c, nw.reverse, e', by simpa using ei, en, ?_⟩
  intro d hd b hb hdb
  have hd' : d ∈ nw := by simpa using hd
  have hdok : OkName d.name := hcs d (by rw [e']; simp [hd'])
  have := hn d hd'
  cases hw : hasWild nm with
  | true =>
    rw [hw, if_pos rfl] at this
    rw [patMatches_concrete hdok this.1] at hdb
    subst hdb
    exact this.2 hb
  | false =>
    rw [hw, if_neg (by simp)] at this
    rw [patMatches_concrete hok hw] at hb
    subst hb
    exact this hdb

theorem getElem?_mid {α : Type} (pre post : List α) (c : α) : (pre ++ c :: post)[pre.length]? = some c := by simp

theorem set_mid {α : Type} (pre post : List α) (c d : α) : (pre ++ c :: post).set pre.length d = pre ++ d :: post := by simp

/-! ### writing to the node of highest priority -/

/-- the node at `r` has the names `L`, and nothing newer has to do with what `L` matches -/
inductive Prio : List Str → Ref → Node → Prop
  | nil (n : Node) : Prio [] [] n
  | cons {n c : Node} {pre post : List Node} {a : Str} {L : List Str} {r : Ref} :
      n.children = pre ++ c :: post → c.name = a →
      (∀ d ∈ post, ∀ b, patMatches a b = true → ¬ patMatches d.name b = true) → Prio L r c →
      Prio (a :: L) (pre.length :: r) n

theorem added_children (nm : Str) (req : Bool) : (added nm req).children = [] := rfl
theorem added_name (nm : Str) (req : Bool) : (added nm req).name = nm := rfl
theorem added_value (nm : Str) (req : Bool) : (added nm req).value = none := rfl
theorem added_reads (nm : Str) (req : Bool) : (added nm req).reads = 0 := rfl

theorem wf_added (nm : Str) (req : Bool) : WF (added nm req) := WF.mk (by intro c hc; cases hc)

/-- the cases of `create` -/
theorem create_cases {req : Bool} {a : Str} {L : List Str} {n n' : Node} {o : Option Ref}
    (h : create req (a :: L) n = some (n', o)) (hw : WF n) (ha : OkName a) :
    (a = [] ∧ n' = n ∧ o = none) ∨
    (a ≠ [] ∧ ∃ pre c post c' o', n.children = pre ++ c :: post ∧ c.name = a ∧
      (∀ d ∈ post, ∀ b, patMatches a b = true → ¬ patMatches d.name b = true) ∧
      create req L c = some (c', o') ∧ n' = { n with children := pre ++ c' :: post } ∧ o = o'.map (pre.length :: ·)) ∨
    (a ≠ [] ∧ n.value = none ∧ ∃ c' o', create req L (added a req) = some (c', o') ∧
      n' = { n with children := n.children ++ [c'] } ∧ o = o'.map (n.children.length :: ·)) := by
  unfold create at h
  by_cases h0 : a = []
  · rw [if_pos h0] at h
    obtain ⟨rfl, rfl⟩ := Prod.mk.inj (Option.some.inj h)
    exact Or.inl ⟨h0, rfl, rfl⟩
  rw [if_neg h0] at h
  cases hp : prioIdx n.children a with
  | some i =>
    rw [hp] at h
    obtain ⟨pre, c, post, e, ei, en, hn⟩ := prioIdx_some hp ha (fun c hc => (hw.name hc).1)
    have hi : n.children[i]? = some c := by rw [e, ei]; exact getElem?_mid _ _ _
    dsimp only at h
    rw [hi] at h
    dsimp only at h
    cases hc : create req L c with
    | none => rw [hc] at h; cases h
    | some p =>
      rw [hc] at h
      obtain ⟨rfl, rfl⟩ := Prod.mk.inj (Option.some.inj h)
      refine Or.inr (Or.inl ⟨h0, pre, c, post, p.1, p.2, e, en, hn, hc, ?_, by rw [ei]⟩)
      rw [e, ei, set_mid]
  | none =>
    rw [hp] at h
    dsimp only at h
    by_cases hv : n.value.isSome = true
    · rw [if_pos hv] at h; cases h
    rw [if_neg hv] at h
    cases hc : create req L (added a req) with
    | none => rw [hc] at h; cases h
    | some p =>
      rw [hc] at h
      obtain ⟨rfl, rfl⟩ := Prod.mk.inj (Option.some.inj h)
      exact Or.inr (Or.inr ⟨h0, by simpa using hv, p.1, p.2, rfl, rfl, rfl⟩)

theorem create_name {req : Bool} {L : List Str} {n n' : Node} {o : Option Ref} (h : create req L n = some (n', o)) :
    n'.name = n.name ∧ n'.value = n.value ∧ n'.required = n.required ∧ n'.reads = n.reads := by
  cases L with
  | nil =>
    obtain ⟨rfl, rfl⟩ := Prod.mk.inj (Option.some.inj h)
    exact ⟨rfl, rfl, rfl, rfl⟩
  | cons a L =>
    unfold create at h
    split at h
    · obtain ⟨rfl, rfl⟩ := Prod.mk.inj (Option.some.inj h)
      exact ⟨rfl, rfl, rfl, rfl⟩
    · split at h
      · split at h
        · rw [Option.map_eq_some_iff] at h
          obtain ⟨p, _, h⟩ := h
          obtain ⟨rfl, rfl⟩ := Prod.mk.inj h
          exact ⟨rfl, rfl, rfl, rfl⟩
        · cases h
      · split at h
        · cases h
        · rw [Option.map_eq_some_iff] at h
          obtain ⟨p, _, h⟩ := h
          obtain ⟨rfl, rfl⟩ := Prod.mk.inj h
          exact ⟨rfl, rfl, rfl, rfl⟩

/-- names up to the first empty one are legal -/
def OkP (L : List Str) : Prop := ∀ x ∈ L, OkName x

theorem create_prio {req : Bool} {L : List Str} {n n' : Node} {r : Ref} (h : create req L n = some (n', some r))
    (hw : WF n) (hL : OkP L) : Prio L r n' := by
  induction L generalizing n n' r with
  | nil =>
    obtain ⟨rfl, h2⟩ := Prod.mk.inj (Option.some.inj h)
    obtain rfl := Option.some.inj h2
    exact .nil n
  | cons a L ih =>
    rcases create_cases h hw (hL a (by simp)) with ⟨_, _, h2⟩ | ⟨_, pre, c, post, c', o', e, en, hn, hc, rfl, ho⟩ |
      ⟨_, _, c', o', hc, rfl, ho⟩
    · cases h2
    · cases o' with
      | none => cases ho
      | some r' =>
        obtain rfl := Option.some.inj ho
        refine .cons rfl ?_ hn (ih hc (hw.child (by rw [e]; simp)) fun x hx => hL x (by simp [hx]))
        rw [(create_name hc).1, en]
    · cases o' with
      | none => cases ho
      | some r' =>
        obtain rfl := Option.some.inj ho
        refine .cons (post := []) rfl ?_ (by simp) (ih hc (wf_added a req) fun x hx => hL x (by simp [hx]))
        rw [(create_name hc).1, added_name]

/-- `L` reaches down to what `p` designates -/
def covers : List Str → List Str → Bool
  | _, [] => true
  | [], _ :: _ => false
  | a :: L, b :: p => patMatches a b && covers L p

/-- making nodes does not change what is found unless the new nodes are of interest and on the path -/
theorem create_first {α : Type} {g : Node → Option α} (hg : ∀ (n : Node) (cs : List Node), g { n with children := cs } = g n)
    {req : Bool} {L : List Str} {n n' : Node} {o : Option Ref} (h : create req L n = some (n', o))
    (hw : WF n) (hL : OkP L) (p : List Str) (hp : (∀ a, g (added a req) = none) ∨ covers L p = false) :
    first g p n' = first g p n := by
  induction L generalizing n n' o p with
  | nil =>
    obtain ⟨rfl, _⟩ := Prod.mk.inj (Option.some.inj h)
    rfl
  | cons a L ih =>
    rcases create_cases h hw (hL a (by simp)) with ⟨_, rfl, _⟩ | ⟨_, pre, c, post, c', o', e, en, hn, hc, rfl, ho⟩ |
      ⟨_, _, c', o', hc, rfl, ho⟩
    · rfl
    · cases p with
      | nil => exact hg _ _
      | cons b p =>
        rw [first_cons, first_cons]
        show firstL g b p (pre ++ c' :: post) = _
        rw [e, firstL_mid, firstL_mid, (create_name hc).1]
        by_cases hm : patMatches c.name b = true
        · rw [if_pos hm, if_pos hm, ih hc (hw.child (by rw [e]; simp)) (fun x hx => hL x (by simp [hx])) p]
          rcases hp with hp | hp
          · exact Or.inl hp
          · rw [covers, ← en, hm, Bool.true_and] at hp
            exact Or.inr hp
        · rw [if_neg hm, if_neg hm]
    · cases p with
      | nil => exact hg _ _
      | cons b p =>
        rw [first_cons, first_cons]
        show firstL g b p (n.children ++ [c']) = _
        rw [firstL_append, firstL_single, (create_name hc).1, added_name]
        by_cases hm : patMatches a b = true
        · rw [if_pos hm]
          have hp' : (∀ a, g (added a req) = none) ∨ covers L p = false := by
            rcases hp with hp | hp
            · exact Or.inl hp
            · rw [covers, hm, Bool.true_and] at hp
              exact Or.inr hp
          rw [ih hc (wf_added a req) (fun x hx => hL x (by simp [hx])) p hp']
          have : first g p (added a req) = none := by
            cases p with
            | nil =>
              rcases hp' with hp | hp
              · exact hp a
              · cases L <;> cases hp
            | cons d p => rw [first_cons, added_children, firstL_nil]
          rw [this]; rfl
        · rw [if_neg hm]; rfl

/-- what is left of `p` after `L` -/
def strip : List Str → List Str → Option (List Str)
  | [], p => some p
  | _ :: _, [] => none
  | a :: L, b :: p => if patMatches a b then strip L p else none

theorem prio_first {α : Type} {g : Node → Option α} (hg : ∀ (n : Node) (cs : List Node), g { n with children := cs } = g n)
    {L : List Str} {r : Ref} {n : Node} (h : Prio L r n) (p : List Str) :
    ∃ m, nodeAt r n = some m ∧
      ((strip L p = none ∧ ∀ F : Node → Node, (∀ x, (F x).name = x.name) → first g p (modifyAt F r n) = first g p n) ∨
       (∃ q rest, strip L p = some q ∧ first g p n = (first g q m).or rest ∧
          ∀ F : Node → Node, (∀ x, (F x).name = x.name) → first g p (modifyAt F r n) = (first g q (F m)).or rest)) := by
  induction h generalizing p with
  | nil n => exact ⟨n, rfl, Or.inr ⟨p, none, rfl, by simp, fun F _ => by simp [modifyAt]⟩⟩
  | @cons n c pre post a L r e en hn hp ih =>
    have hi : n.children[pre.length]? = some c := by rw [e]; exact getElem?_mid _ _ _
    have hm : ∀ F, modifyAt F (pre.length :: r) n = { n with children := pre ++ modifyAt F r c :: post } := by
      intro F
      simp only [modifyAt, hi]
      rw [e, set_mid]
    have hname : ∀ F : Node → Node, (∀ x, (F x).name = x.name) → (modifyAt F r c).name = c.name := by
      intro F hF
      cases r with
      | nil => exact hF c
      | cons j r =>
        simp only [modifyAt]
        split <;> rfl
    have hat : nodeAt (pre.length :: r) n = nodeAt r c := by simp [nodeAt, hi]
    cases p with
    | nil =>
      obtain ⟨m, hm1, _⟩ := ih []
      exact ⟨m, by rw [hat]; exact hm1, Or.inl ⟨rfl, fun F _ => by rw [hm]; exact hg _ _⟩⟩
    | cons b p =>
      obtain ⟨m, hm1, hm2⟩ := ih p
      refine ⟨m, by rw [hat]; exact hm1, ?_⟩
      by_cases hb : patMatches a b = true
      · have hpost : firstL g b p post = none := firstL_none fun d hd => hn d hd b hb
        have hs : strip (a :: L) (b :: p) = strip L p := by simp [strip, hb]
        have key : ∀ F : Node → Node, (∀ x, (F x).name = x.name) →
            first g (b :: p) (modifyAt F (pre.length :: r) n) = (first g p (modifyAt F r c)).or (firstL g b p pre) := by
          intro F hF
          rw [hm, first_cons, firstL_mid, hpost, hname F hF, en, if_pos hb]
          rfl
        have key0 : first g (b :: p) n = (first g p c).or (firstL g b p pre) := by
          rw [first_cons, e, firstL_mid, hpost, en, if_pos hb]; rfl
        rcases hm2 with ⟨h1, h2⟩ | ⟨q, rest, h1, h2, h3⟩
        · refine Or.inl ⟨by rw [hs]; exact h1, fun F hF => ?_⟩
          rw [key F hF, key0, h2 F hF]
        · refine Or.inr ⟨q, rest.or (firstL g b p pre), by rw [hs]; exact h1, ?_, fun F hF => ?_⟩
          · rw [key0, h2, Option.or_assoc]
          · rw [key F hF, h3 F hF, Option.or_assoc]
      · refine Or.inl ⟨by simp [strip, hb], fun F hF => ?_⟩
        rw [hm, first_cons, first_cons, e]
        show firstL g b p (pre ++ modifyAt F r c :: post) = _
        rw [firstL_mid, firstL_mid, hname F hF, en, if_neg hb, if_neg hb]

end Sparta.PTree
