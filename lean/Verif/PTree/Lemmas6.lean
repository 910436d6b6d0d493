import Verif.PTree.Lemmas5
import Verif.PTree.Spec
/-! The trees and their histories. -/
namespace Sparta.PTree
open Sparta.Strings (Str)

/-- what an event says about the value a path designates -/
def valOf (p : List Str) : Ev → Option (Str × Str)
  | .write L v o _ => if strip L p = some [] then some (v, o) else none
  | _ => none

def reqEv (p : List Str) : Ev → Option Bool
  | .write L _ _ q => if strip L p = some [] then some q else none
  | _ => none

def lastOf {α : Type} (f : Ev → Option α) (evs : List Ev) : Option α := evs.reverse.findSome? f

theorem lastOf_append {α : Type} (f : Ev → Option α) (a b : List Ev) : lastOf f (a ++ b) = (lastOf f b).or (lastOf f a) := by
  unfold lastOf
  rw [List.reverse_append, List.findSome?_append]

theorem lastOf_single {α : Type} (f : Ev → Option α) (e : Ev) : lastOf f [e] = f e := by
  unfold lastOf
  simp only [List.reverse_cons, List.reverse_nil, List.nil_append, List.findSome?_cons, List.findSome?_nil]
  cases f e <;> rfl

theorem lastOf_filter {α : Type} {f : Ev → Option α} (hf : ∀ L, f (.look L) = none) (evs : List Ev) :
    lastOf f (evs.filter Ev.keep) = lastOf f evs := by
  induction evs with
  | nil => rfl
  | cons e evs ih =>
    rw [show e :: evs = [e] ++ evs from rfl, List.filter_append, lastOf_append, lastOf_append, ih]
    congr 1
    cases e with
    | look L => rw [lastOf_single, hf]; rfl
    | _ => rfl

theorem lastOf_none {α : Type} {f : Ev → Option α} {evs : List Ev} : lastOf f evs = none ↔ ∀ e ∈ evs, f e = none := by
  unfold lastOf
  rw [List.findSome?_eq_none_iff]
  simp

theorem lastOf_some {α : Type} {f : Ev → Option α} {evs : List Ev} {w : α} (h : lastOf f evs = some w) :
    ∃ a e b, evs = a ++ e :: b ∧ f e = some w ∧ ∀ x ∈ b, f x = none := by
  unfold lastOf at h
  rw [List.findSome?_eq_some_iff] at h
  obtain ⟨l1, e, l2, h1, h2, h3⟩ := h
  refine ⟨l2.reverse, e, l1.reverse, ?_, h2, fun x hx => h3 x (by simpa using hx)⟩
  rw [← List.reverse_reverse (as := evs), h1]; simp

/-- nothing happened that makes nodes at the path other than by writing to it, and nothing was unrequired -/
def CleanEv (p : List Str) : Ev → Prop
  | .write L _ _ _ => covers L p = true → strip L p = some []
  | .touch L _ => covers L p = false
  | .look _ => True
  | .unreq _ => False

/-- what the history says about a node -/
structure NodeOk (evs : List Ev) (L : List Str) (y : Pay) : Prop where
  val : ∀ w, y.1 = some w → ∃ a b q, evs = a ++ .write L w.1 w.2 q :: b ∧
    (L ≠ [] → y.2.2 = 0 → ∀ p, Ev.look p ∈ b → strip L p ≠ some [])
  rd : 0 < y.2.2 → ∃ p, Ev.look p ∈ evs ∧ strip L p = some []
  rq : 0 < y.2.1 → (y.1.isSome = true ∧ ∃ v o, Ev.write L v o true ∈ evs) ∨ ∃ L', Ev.touch L' true ∈ evs ∧ L <+: L'
  nov : y.1 = none → L = [] ∨ (∃ L' q, Ev.touch L' q ∈ evs ∧ L <+: L') ∨ ∃ L' v o q, Ev.write L' v o q ∈ evs ∧ L <+: L'

def OkEv : Ev → Prop
  | .write L _ _ _ => OkP L
  | .touch L _ => OkP L
  | _ => True

structure Good (n : Node) (evs : List Ev) : Prop where
  wf : WF n
  ok : ∀ e ∈ evs, OkEv e
  look : ∀ p, look p n = lastOf (valOf p) evs
  nodes : Inv (NodeOk evs) n
  vals : ∀ L v o q, Ev.write L v o q ∈ evs → HasVal n L
  req : ∀ p, p ≠ [] → (∀ e ∈ evs, CleanEv p e) → lastOf (reqEv p) evs = some true → first reqOf p n = some true

theorem good_root : Good newRoot [] where
  wf := by
    refine WF.mk ?_
    intro c hc; cases hc
  ok := by simp
  look := by
    intro p
    cases p <;> rfl
  nodes := by
    rw [inv_iff]
    refine ⟨⟨(fun w h => by cases h), (fun h => by cases h), (fun h => by cases h), fun _ => Or.inl rfl⟩, ?_⟩
    intro c hc; cases hc
  vals := by simp
  req := by
    intro p _ _ h; cases h

theorem NodeOk.mono {a b : List Ev} {L : List Str} {y : Pay} (h : NodeOk a L y) (hb : ∀ p, Ev.look p ∈ b → strip L p ≠ some []) :
    NodeOk (a ++ b) L y where
  val w hw := by
    obtain ⟨x, z, q, rfl, h2⟩ := h.val w hw
    refine ⟨x, z ++ b, q, by simp, fun hL hy p hp => ?_⟩
    rcases List.mem_append.1 hp with hp | hp
    · exact h2 hL hy p hp
    · exact hb p hp
  rd hr := by
    obtain ⟨p, hp, hs⟩ := h.rd hr
    exact ⟨p, by simp [hp], hs⟩
  rq hr := by
    rcases h.rq hr with ⟨h1, v, o, h2⟩ | ⟨L', h1, h2⟩
    · exact Or.inl ⟨h1, v, o, by simp [h2]⟩
    · exact Or.inr ⟨L', by simp [h1], h2⟩
  nov hn := by
    rcases h.nov hn with h | ⟨L', q, h1, h2⟩ | ⟨L', v, o, q, h1, h2⟩
    · exact Or.inl h
    · exact Or.inr (Or.inl ⟨L', q, by simp [h1], h2⟩)
    · exact Or.inr (Or.inr ⟨L', v, o, q, by simp [h1], h2⟩)

theorem Inv.imp {P Q : List Str → Pay → Prop} {n : Node} (h : Inv P n) (hi : ∀ L y, P L y → Q L y) : Inv Q n :=
  fun L c hc => hi L _ (h L c hc)

theorem InvC.imp {P Q : List Str → Pay → Prop} {n : Node} (h : InvC P n) (hi : ∀ L y, P L y → Q L y) : InvC Q n :=
  fun c hc => Inv.imp (h c hc) (fun L y => hi _ y)

theorem valOf_look (p L : List Str) : valOf p (.look L) = none := rfl
theorem reqEv_look (p L : List Str) : reqEv p (.look L) = none := rfl

theorem covers_of_prefix {L L' p : List Str} (h : L <+: L') (hs : strip L p = some []) : covers L' p = true := by
  induction L generalizing L' p with
  | nil =>
    obtain rfl : p = [] := Option.some.inj hs
    cases L' <;> rfl
  | cons a L ih =>
    cases p with
    | nil => cases hs
    | cons b p =>
      obtain ⟨t, rfl⟩ := h
      simp only [strip] at hs
      split at hs
      · rename_i hm
        rw [List.cons_append, covers, hm, Bool.true_and]
        exact ih ⟨t, rfl⟩ hs
      · cases hs

/-! ### making nodes -/

theorem touch_cover {req : Bool} {L : List Str} {n n' : Node} {o : Option Ref} (h : create req L n = some (n', o))
    (hw : WF n) (hL : OkP L) (p : List Str) (hp : covers (upToEmpty L) p = false) : first reqOf p n' = first reqOf p n := by
  induction L generalizing n n' o p with
  | nil =>
    obtain ⟨rfl, _⟩ := Prod.mk.inj (Option.some.inj h)
    rfl
  | cons a L ih =>
    rcases create_cases h hw (hL a (by simp)) with ⟨_, rfl, _⟩ | ⟨ha, pre, c, post, c', o', e, en, hn, hc, rfl, ho⟩ |
      ⟨ha, _, c', o', hc, rfl, ho⟩
    · rfl
    · have hu : upToEmpty (a :: L) = a :: upToEmpty L := by simp [upToEmpty, ha]
      rw [hu] at hp
      cases p with
      | nil => rw [covers] at hp; cases hp
      | cons b p =>
        rw [first_cons, first_cons]
        show firstL reqOf b p (pre ++ c' :: post) = _
        rw [e, firstL_mid, firstL_mid, (create_name hc).1]
        by_cases hm : patMatches c.name b = true
        · rw [covers, ← en, hm, Bool.true_and] at hp
          rw [if_pos hm, if_pos hm, ih hc (hw.child (by rw [e]; simp)) (fun x hx => hL x (by simp [hx])) p hp]
        · rw [if_neg hm, if_neg hm]
    · have hu : upToEmpty (a :: L) = a :: upToEmpty L := by simp [upToEmpty, ha]
      rw [hu] at hp
      cases p with
      | nil => rw [covers] at hp; cases hp
      | cons b p =>
        rw [first_cons, first_cons]
        show firstL reqOf b p (n.children ++ [c']) = _
        rw [firstL_append, firstL_single, (create_name hc).1, added_name]
        by_cases hm : patMatches a b = true
        · rw [if_pos hm]
          rw [covers, hm, Bool.true_and] at hp
          rw [ih hc (wf_added a req) (fun x hx => hL x (by simp [hx])) p hp]
          have : first reqOf p (added a req) = none := by
            cases p with
            | nil => cases hu : upToEmpty L <;> rw [hu, covers] at hp <;> cases hp
            | cons d p => rw [first_cons, added_children, firstL_nil]
          rw [this]; rfl
        · rw [if_neg hm]; rfl

theorem good_touch {n n' : Node} {evs : List Ev} {L : List Str} {req : Bool} {o : Option Ref} (h : Good n evs) (hL : OkP L)
    (hc : create req L n = some (n', o)) : Good n' (evs ++ [.touch (upToEmpty L) req]) where
  wf := create_wf hc h.wf hL
  ok := by
    intro e he
    rcases List.mem_append.1 he with he | he
    · exact h.ok e he
    · rw [List.mem_singleton.1 he]
      exact fun x hx => (upToEmpty_ok hL x hx).1
  look := by
    intro p
    rw [lastOf_append, lastOf_single, ← h.look p]
    exact create_first value_children hc h.wf hL p (Or.inl fun _ => rfl)
  nodes := by
    refine create_inv hc h.wf hL (h.nodes.imp fun L y hy => hy.mono (by simp)) ?_
    intro L' h0 hp
    refine ⟨(fun w hw => by cases hw), (fun hr => by cases hr), fun hr => ?_, fun _ => ?_⟩
    · cases req with
      | true => exact Or.inr ⟨_, by simp, hp⟩
      | false => cases hr
    · exact Or.inr (Or.inl ⟨_, req, by simp, hp⟩)
  vals := by
    intro K v og q hm
    have : Ev.write K v og q ∈ evs := by simpa using hm
    exact create_hasVal hc h.wf hL (h.vals K v og q this)
  req := by
    intro p hp0 hcl hl
    rw [lastOf_append, lastOf_single] at hl
    have := h.req p hp0 (fun e he => hcl e (by simp [he])) hl
    have hcov : CleanEv p (.touch (upToEmpty L) req) := hcl _ (by simp)
    rw [touch_cover hc h.wf hL p hcov]
    exact this

/-- a path that leads to a node has no empty names -/
theorem create_upTo {req : Bool} {L : List Str} {n n' : Node} {r : Ref} (h : create req L n = some (n', some r))
    (hw : WF n) (hL : OkP L) : upToEmpty L = L := by
  induction L generalizing n n' r with
  | nil => rfl
  | cons a L ih =>
    rcases create_cases h hw (hL a (by simp)) with ⟨_, _, h2⟩ | ⟨ha, pre, c, post, c', o', e, en, hn, hc, rfl, ho⟩ |
      ⟨ha, _, c', o', hc, rfl, ho⟩
    · cases h2
    · have hu : upToEmpty (a :: L) = a :: upToEmpty L := by simp [upToEmpty, ha]
      cases o' with
      | none => cases ho
      | some r' => rw [hu, ih hc (hw.child (by rw [e]; simp)) (fun x hx => hL x (by simp [hx]))]
    · have hu : upToEmpty (a :: L) = a :: upToEmpty L := by simp [upToEmpty, ha]
      cases o' with
      | none => cases ho
      | some r' => rw [hu, ih hc (wf_added a req) (fun x hx => hL x (by simp [hx]))]

theorem first_setValue {α : Type} {g : Node → Option α} (n : Node) (v : Str) (q : Bool) (o b : Str) (p : List Str) :
    first g (b :: p) (n.setValue v q o) = first g (b :: p) n := by
  rw [first_cons, first_cons, setValue_children]

theorem strip_covers {L p : List Str} (h : covers L p = true) (hs : strip L p ≠ some []) : covers L p = true ∧ strip L p = none := by
  refine ⟨h, ?_⟩
  induction L generalizing p with
  | nil =>
    cases p with
    | nil => exact absurd rfl hs
    | cons => cases h
  | cons a L ih =>
    cases p with
    | nil => rfl
    | cons b p =>
      rw [covers, Bool.and_eq_true] at h
      rw [strip, if_pos h.1] at hs ⊢
      exact ih h.2 hs

theorem good_write {n n' : Node} {evs : List Ev} {L : List Str} {v org : Str} {req : Bool} {r : Ref} (h : Good n evs)
    (hL : OkP L) (hc : create false L n = some (n', some r)) :
    Good (modifyAt (·.setValue v req org) r n') (evs ++ [.write L v org req]) := by
  have hp := create_prio hc h.wf hL
  have hnm : ∀ x : Node, (x.setValue v req org).name = x.name := fun _ => rfl
  have hup := create_upTo hc h.wf hL
  have hwf' := create_wf hc h.wf hL
  refine ⟨?_, ?_, ?_, ?_, ?_, ?_⟩
  · refine modify_inv (P := fun L _ => OkL L) hnm (prio_names hp) hwf' ?_
    intro m hm hinv
    rw [inv_iff] at hinv ⊢
    exact ⟨hinv.1, hinv.2⟩
  · intro e he
    rcases List.mem_append.1 he with he | he
    · exact h.ok e he
    · rw [List.mem_singleton.1 he]; exact hL
  · intro p
    rw [lastOf_append, lastOf_single, ← h.look p]
    have h0 : first Node.value p n' = first Node.value p n :=
      create_first value_children hc h.wf hL p (Or.inl fun _ => rfl)
    obtain ⟨m, hm, hcase⟩ := prio_first value_children hp p
    show first Node.value p _ = (valOf p _).or (first Node.value p n)
    rcases hcase with ⟨hst, hF⟩ | ⟨q, rest, hst, hF0, hF⟩
    · rw [hF _ hnm, h0]
      simp [valOf, hst]
    · rw [hF _ hnm]
      cases q with
      | nil => simp [valOf, hst, first, Node.setValue]
      | cons b q =>
        rw [first_setValue, ← hF0, h0]
        simp [valOf, hst]
  · have hi := inv_split.1 (h.nodes.imp fun K y hy => hy.mono (b := [.write L v org req]) (by simp))
    refine create_mod_inv hnm hc h.wf hL hi.2 (Or.inl hi.1) (fun _ => hi.1) ?_ ?_
    · intro L' h0 hpre hne
      exact ⟨(fun w hw => by cases hw), (fun hr => by cases hr), (fun hr => by cases hr),
        fun _ => Or.inr (Or.inr ⟨L, v, org, req, by simp, hpre⟩)⟩
    · intro m hm hic hor
      rw [inv_split]
      refine ⟨?_, hic⟩
      rw [List.append_nil]
      have hpay : pay (m.setValue v req org) = (some (v, org), (if req then m.required + 1 else m.required), m.reads) := rfl
      rw [hpay]
      refine ⟨?_, ?_, ?_, (fun hn => by cases hn)⟩
      · intro w hw
        obtain rfl := Option.some.inj hw
        exact ⟨evs, [], req, rfl, fun _ _ p hp => by cases hp⟩
      · intro hr
        rcases hor with hor | hor
        · exact hor.rd hr
        · have : m.reads = 0 := congrArg (fun q => q.2.2) hor
          rw [this] at hr; cases hr
      · intro hr
        cases req with
        | true => exact Or.inl ⟨rfl, v, org, by simp⟩
        | false =>
          have hr : 0 < m.required := hr
          rcases hor with hor | hor
          · rcases hor.rq hr with ⟨_, h2⟩ | h2
            · exact Or.inl ⟨rfl, h2⟩
            · exact Or.inr h2
          · have : m.required = 0 := congrArg (fun q => q.2.1) hor
            rw [this] at hr; cases hr
  · intro K v' og q hm
    rcases List.mem_append.1 hm with hm | hm
    · have h1 := create_hasVal hc h.wf hL (h.vals K v' og q hm)
      refine modify_hasVal hnm ?_ h1
      intro m _ K hK
      cases K with
      | nil => rw [hasVal_nil]; rfl
      | cons k K => rw [hasVal_cons] at hK ⊢; exact hK
    · obtain ⟨rfl, _, _, _⟩ := Ev.write.inj (List.mem_singleton.1 hm)
      obtain ⟨m, hm, _⟩ := namesAt_at (prio_names hp)
      have := modify_hasVal_new (F := (·.setValue v req org)) (K := []) hnm (prio_names hp) hm (by rw [hasVal_nil]; rfl)
      rwa [List.append_nil] at this
  · intro p hp0 hcl hl
    rw [lastOf_append, lastOf_single] at hl
    have hcw : covers L p = true → strip L p = some [] := hcl (.write L v org req) (by simp)
    obtain ⟨m, hm, hcase⟩ := prio_first reqOf_children hp p
    by_cases hs : strip L p = some []
    · have hq : req = true := by simpa [reqEv, hs] using hl
      subst hq
      rcases hcase with ⟨hst, _⟩ | ⟨q, rest, hst, hF0, hF⟩
      · rw [hs] at hst; cases hst
      · rw [hs] at hst
        obtain rfl := Option.some.inj hst
        rw [hF _ hnm]
        simp [first, reqOf, Node.setValue]
    · have hcov : covers L p = false := by
        cases hcv : covers L p with
        | false => rfl
        | true => exact absurd (hcw hcv) hs
      have hold := h.req p hp0 (fun e he => hcl e (by simp [he])) (by simpa [reqEv, hs] using hl)
      have h0 : first reqOf p n' = first reqOf p n := create_first reqOf_children hc h.wf hL p (Or.inr hcov)
      rcases hcase with ⟨_, hF⟩ | ⟨q, rest, hst, hF0, hF⟩
      · rw [hF _ hnm, h0, hold]
      · cases q with
        | nil => exact absurd hst hs
        | cons b q => rw [hF _ hnm, first_setValue, ← hF0, h0, hold]

/-! ### lookups -/

theorem good_inc {n n' : Node} {evs : List Ev} {leaf : Bool} {q : List Str} (h : Good n evs) (hq : q ≠ [])
    (hi : Inc leaf q n n') : Good n' (evs ++ [.look q]) where
  wf := by
    refine inc_inv (P := fun L _ => OkL L) hi h.wf ?_
    intro L y k _ h _; exact h
  ok := by
    intro e he
    rcases List.mem_append.1 he with he | he
    · exact h.ok e he
    · rw [List.mem_singleton.1 he]; trivial
  look := by
    intro p
    rw [lastOf_append, lastOf_single, ← h.look p]
    exact inc_first value_children (fun _ _ => rfl) hi p
  nodes := by
    -- nodes off the path keep what they have, nodes on it have been counted
    have hpre : Inv (fun L y => NodeOk evs L y) n := h.nodes
    have key : ∀ {P Q : List Str → Pay → Prop} {q : List Str} {n n' : Node}, Inc leaf q n n' → Inv P n →
        (∀ L y, strip L q ≠ some [] → P L y → Q L y) →
        (∀ L y k, strip L q = some [] → P L y → (y.1.isSome = true ∨ leaf = false → 0 < k) → Q L (y.1, y.2.1, y.2.2 + k)) →
        Inv Q n' := by
      intro P Q q n n' h hi h1 h2
      induction q generalizing n n' P Q with
      | nil =>
        obtain ⟨k, rfl, hk⟩ := h
        rw [inv_iff] at hi ⊢
        refine ⟨h2 [] (pay n) k rfl hi.1 hk, fun c hc => ?_⟩
        exact Inv.imp (hi.2 c hc) (fun L y hy => h1 (c.name :: L) y (by simp [strip]) hy)
      | cons b q ih =>
        obtain ⟨cs, rfl, hf2⟩ := inc_cons.1 h
        rw [inv_iff] at hi ⊢
        refine ⟨h1 [] _ (by simp [strip]) hi.1, fun d' hd' => ?_⟩
        obtain ⟨i, hdi⟩ := List.getElem?_of_mem hd'
        obtain ⟨d, hd, hr⟩ := hf2.get hdi
        have hmem := List.mem_of_getElem? hd
        rw [incC_name hr]
        unfold IncC at hr
        split at hr
        · rename_i hm
          refine ih hr (hi.2 d hmem) ?_ ?_
          · intro L y hs hy
            exact h1 (d.name :: L) y (by simpa [strip, hm] using hs) hy
          · intro L y k hs hy hk
            exact h2 (d.name :: L) y k (by simp [strip, hm, hs]) hy hk
        · rename_i hm
          rw [hr]
          exact Inv.imp (hi.2 d hmem) (fun L y hy => h1 (d.name :: L) y (by simp [strip, hm]) hy)
    refine key hi hpre ?_ ?_
    · intro L y hs hy
      exact hy.mono (by
        intro p hp
        rw [List.mem_singleton] at hp
        obtain rfl := Ev.look.inj hp
        exact hs)
    · intro L y k hs hy hk
      refine ⟨?_, fun _ => ⟨q, by simp, hs⟩, ?_, ?_⟩
      · intro w hw
        obtain ⟨a, b, rq, rfl, _⟩ := hy.val w hw
        refine ⟨a, b ++ [.look q], rq, by simp, fun _ h0 => ?_⟩
        have hw' : y.1 = some w := hw
        have := hk (Or.inl (by rw [hw']; rfl))
        have h0' : y.2.2 + k = 0 := h0
        omega
      · intro hr
        rcases hy.rq hr with ⟨h1, v, o, h2⟩ | ⟨L', h1, h2⟩
        · exact Or.inl ⟨h1, v, o, by simp [h2]⟩
        · exact Or.inr ⟨L', by simp [h1], h2⟩
      · intro hn
        rcases hy.nov hn with h | ⟨L', q, h1, h2⟩ | ⟨L', v, o, q, h1, h2⟩
        · exact Or.inl h
        · exact Or.inr (Or.inl ⟨L', q, by simp [h1], h2⟩)
        · exact Or.inr (Or.inr ⟨L', v, o, q, by simp [h1], h2⟩)
  vals := by
    intro K v og rq hm
    have : Ev.write K v og rq ∈ evs := by simpa using hm
    exact inc_hasVal hi (h.vals K v og rq this)
  req := by
    intro p hp0 hcl hl
    rw [lastOf_append, lastOf_single] at hl
    rw [inc_first reqOf_children reqOf_reads hi]
    exact h.req p hp0 (fun e he => hcl e (by simp [he])) hl

theorem good_look_nil {n : Node} {evs : List Ev} (h : Good n evs) : Good n (evs ++ [.look []]) where
  wf := h.wf
  ok := by
    intro e he
    rcases List.mem_append.1 he with he | he
    · exact h.ok e he
    · rw [List.mem_singleton.1 he]; trivial
  look := by
    intro p
    rw [lastOf_append, lastOf_single, ← h.look p]; rfl
  nodes := by
    refine h.nodes.imp fun L y hy => ?_
    have hm : ∀ e, e ∈ evs → e ∈ evs ++ [Ev.look []] := fun e he => by simp [he]
    refine ⟨?_, ?_, ?_, ?_⟩
    · intro w hw
      obtain ⟨a, b, q, e, h2⟩ := hy.val w hw
      refine ⟨a, b ++ [.look []], q, by rw [e]; simp, fun hL h0 p hp => ?_⟩
      rcases List.mem_append.1 hp with hp | hp
      · exact h2 hL h0 p hp
      · obtain rfl := Ev.look.inj (List.mem_singleton.1 hp)
        cases L with
        | nil => exact absurd rfl hL
        | cons => simp [strip]
    · intro hr
      obtain ⟨p, hp, hs⟩ := hy.rd hr
      exact ⟨p, hm _ hp, hs⟩
    · intro hr
      rcases hy.rq hr with ⟨h1, v, o, h2⟩ | ⟨L', h1, h2⟩
      · exact Or.inl ⟨h1, v, o, hm _ h2⟩
      · exact Or.inr ⟨L', hm _ h1, h2⟩
    · intro hn
      rcases hy.nov hn with h | ⟨L', q, h1, h2⟩ | ⟨L', v, o, q, h1, h2⟩
      · exact Or.inl h
      · exact Or.inr (Or.inl ⟨L', q, hm _ h1, h2⟩)
      · exact Or.inr (Or.inr ⟨L', v, o, q, hm _ h1, h2⟩)
  vals := by
    intro K v og rq hm
    have : Ev.write K v og rq ∈ evs := by simpa using hm
    exact h.vals K v og rq this
  req := by
    intro p hp0 hcl hl
    rw [lastOf_append, lastOf_single] at hl
    exact h.req p hp0 (fun e he => hcl e (by simp [he])) hl

theorem tryGet_cases {path : Str} {leaf : Bool} {n n' : Node} {o : Option Ref} (h : tryGet path leaf n = some (n', o)) :
    (names path = [] ∧ n' = n ∧ o = some []) ∨
    (names path ≠ [] ∧ Inc leaf (names path) n n' ∧ (∀ r, o = some r → Found leaf (names path) n n' r) ∧
      (o = none → Nothing leaf (names path) n)) := by
  unfold tryGet at h
  cases hp : names path with
  | nil =>
    rw [hp] at h
    obtain ⟨rfl, rfl⟩ := Prod.mk.inj (Option.some.inj h)
    exact Or.inl ⟨rfl, rfl, rfl⟩
  | cons nm rest =>
    rw [hp] at h
    dsimp only at h
    split at h
    · cases h
    · exact Or.inr ⟨by simp, recursTryGet_spec leaf rest nm n n' o h⟩

theorem good_tryGet {path : Str} {leaf : Bool} {n n' : Node} {o : Option Ref} {evs : List Ev} (hg : Good n evs)
    (h : tryGet path leaf n = some (n', o)) : Good n' (evs ++ [.look (names path)]) := by
  rcases tryGet_cases h with ⟨h1, rfl, _⟩ | ⟨h1, h2, _⟩
  · rw [h1]; exact good_look_nil hg
  · exact good_inc hg h1 h2

theorem good_unreq {n : Node} {evs : List Ev} (hg : Good n evs) (L : List Str) {r : Ref} {K : List Str}
    (hr : namesAt r n = some K) : Good (modifyAt unrequireN r n) (evs ++ [.unreq L]) where
  wf := by
    refine modify_inv (P := fun L _ => OkL L) unrequireN_name hr hg.wf ?_
    intro m _ hinv
    exact unreq_inv m _ hinv (fun _ _ h => h)
  ok := by
    intro e he
    rcases List.mem_append.1 he with he | he
    · exact hg.ok e he
    · rw [List.mem_singleton.1 he]; trivial
  look := by
    intro p
    rw [lastOf_append, lastOf_single, ← hg.look p]
    exact modify_first value_children unrequireN_name unreq_look r n p
  nodes := by
    refine modify_inv unrequireN_name hr (hg.nodes.imp fun L y hy => hy.mono (by simp)) ?_
    intro m _ hinv
    refine unreq_inv m _ hinv ?_
    intro L y hy
    exact ⟨hy.val, hy.rd, (fun h => by cases h), hy.nov⟩
  vals := by
    intro K v og rq hm
    have : Ev.write K v og rq ∈ evs := by simpa using hm
    exact modify_hasVal unrequireN_name (fun m _ K hK => unreq_hasVal hK) (hg.vals K v og rq this)
  req := by
    intro p _ hcl
    exact absurd (hcl (.unreq L) (by simp)) (fun h => h)

theorem good_unreq_none {n : Node} {evs : List Ev} (hg : Good n evs) (L : List Str) : Good n (evs ++ [.unreq L]) where
  wf := hg.wf
  ok := by
    intro e he
    rcases List.mem_append.1 he with he | he
    · exact hg.ok e he
    · rw [List.mem_singleton.1 he]; trivial
  look := by
    intro p
    rw [lastOf_append, lastOf_single, ← hg.look p]; rfl
  nodes := hg.nodes.imp fun L y hy => hy.mono (by simp)
  vals := by
    intro K v og rq hm
    have : Ev.write K v og rq ∈ evs := by simpa using hm
    exact hg.vals K v og rq this
  req := by
    intro p _ hcl
    exact absurd (hcl (.unreq L) (by simp)) (fun h => h)

/-! ### merging -/

theorem inh_some {z y : Pay} {w : Str × Str} (h : z.1 = some w) :
    inh z y = (some w, (if 0 < z.2.1 then y.2.1 + 1 else y.2.1), y.2.2) := by
  unfold inh; rw [h]

theorem inh_none {z y : Pay} (h : z.1 = none) : inh z y = y := by
  unfold inh; rw [h]

theorem keep_mem {evs : List Ev} {e : Ev} (h : e ∈ evs) (hk : e.keep = true) : e ∈ evs.filter Ev.keep :=
  List.mem_filter.2 ⟨h, hk⟩

theorem nodeOk_inh {a b : List Ev} {L : List Str} {z y : Pay} (hz : NodeOk b L z)
    (hy : NodeOk (a ++ b.filter Ev.keep) L y ∨ y = fresh (decide (0 < z.2.1))) :
    NodeOk (a ++ b.filter Ev.keep) L (inh z y) := by
  have hb : ∀ e, e ∈ b → e.keep = true → e ∈ a ++ b.filter Ev.keep := fun e he hk =>
    List.mem_append.2 (Or.inr (keep_mem he hk))
  cases hv : z.1 with
  | none =>
    rw [inh_none hv]
    rcases hy with hy | rfl
    · exact hy
    · refine ⟨(fun w hw => by cases hw), (fun hr => by cases hr), fun hr => ?_, fun _ => ?_⟩
      · have hr' : 0 < z.2.1 := by
          rcases Nat.eq_zero_or_pos z.2.1 with h0 | h0
          · simp [fresh, h0] at hr
          · exact h0
        rcases hz.rq hr' with ⟨h1, _⟩ | ⟨L', h1, h2⟩
        · rw [hv] at h1; cases h1
        · exact Or.inr ⟨L', hb _ h1 rfl, h2⟩
      · rcases hz.nov hv with h | ⟨L', q, h1, h2⟩ | ⟨L', v, o, q, h1, h2⟩
        · exact Or.inl h
        · exact Or.inr (Or.inl ⟨L', q, hb _ h1 rfl, h2⟩)
        · exact Or.inr (Or.inr ⟨L', v, o, q, hb _ h1 rfl, h2⟩)
  | some w =>
    rw [inh_some hv]
    refine ⟨?_, ?_, ?_, (fun h => by cases h)⟩
    · intro w' hw'
      obtain rfl := Option.some.inj hw'
      obtain ⟨x, t, q, rfl, _⟩ := hz.val w hv
      refine ⟨a ++ x.filter Ev.keep, t.filter Ev.keep, q, ?_, ?_⟩
      · rw [List.filter_append, List.filter_cons_of_pos rfl]; simp
      · intro _ _ p hp
        have := (List.mem_filter.1 hp).2
        cases this
    · intro hr
      rcases hy with hy | rfl
      · exact hy.rd hr
      · cases hr
    · intro hr
      by_cases hq : 0 < z.2.1
      · rcases hz.rq hq with ⟨h1, v, o, h2⟩ | ⟨L', h1, h2⟩
        · exact Or.inl ⟨rfl, v, o, hb _ h2 rfl⟩
        · exact Or.inr ⟨L', hb _ h1 rfl, h2⟩
      · rw [if_neg hq] at hr
        have hr' : 0 < y.2.1 := hr
        rcases hy with hy | rfl
        · rcases hy.rq hr' with ⟨_, h2⟩ | h2
          · exact Or.inl ⟨rfl, h2⟩
          · exact Or.inr h2
        · simp [fresh, hq] at hr'

theorem good_merge {n o : Node} {a b : List Ev} (hn : Good n a) (ho : Good o b) (h : (append o n).2 = true) :
    Good (append o n).1 (a ++ b.filter Ev.keep) where
  wf := append_wf o n ho.wf hn.wf
  ok := by
    intro e he
    rcases List.mem_append.1 he with he | he
    · exact hn.ok e he
    · exact ho.ok e (List.mem_filter.1 he).1
  look := by
    intro p
    rw [append_look o n ho.wf hn.wf h p, lastOf_append, lastOf_filter (valOf_look p), ← hn.look p, ← ho.look p]
  nodes := by
    have hmono : ∀ L y, NodeOk a L y → NodeOk (a ++ b.filter Ev.keep) L y := fun L y hy => hy.mono (by
      intro p hp
      have := (List.mem_filter.1 hp).2
      cases this)
    have hi := inv_split.1 (hn.nodes.imp hmono)
    refine append_inv2 o n _ ho.wf hn.wf h hi.2 ?_ ?_
    · exact nodeOk_inh (ho.nodes [] o (.here o)) (Or.inl hi.1)
    · intro L z y hz _ hy
      exact nodeOk_inh (ho.nodes L z hz) hy
  vals := by
    intro K v og q hm
    obtain ⟨h1, h2⟩ := append_hasVal o n ho.wf hn.wf h
    rcases List.mem_append.1 hm with hm | hm
    · exact h1 K (hn.vals K v og q hm)
    · exact h2 K (ho.vals K v og q (List.mem_filter.1 hm).1)
  req := by
    intro p hp0 hcl hl
    have hclb : ∀ e ∈ b, CleanEv p e := by
      intro e he
      cases e with
      | look L => trivial
      | _ => exact hcl _ (List.mem_append.2 (Or.inr (keep_mem he rfl)))
    have hcla : ∀ e ∈ a, CleanEv p e := fun e he => hcl e (by simp [he])
    rw [lastOf_append, lastOf_filter (reqEv_look p)] at hl
    have hV : ∀ L z, At o L z → strip L p = some [] → 0 < z.required → z.value.isSome = true := by
      intro L z hz hs hr
      rcases (ho.nodes L z hz).rq hr with ⟨h1, _⟩ | ⟨L', h1, h2⟩
      · exact h1
      · have : covers L' p = false := hclb _ h1
        rw [covers_of_prefix h2 hs] at this; cases this
    obtain ⟨r1, r2⟩ := append_req o n ho.wf hn.wf h p hV
    cases hb : lastOf (reqEv p) b with
    | some x =>
      rw [hb] at hl
      obtain rfl : x = true := by simpa using hl
      exact r1 (ho.req p hp0 hclb hb)
    | none =>
      rw [hb, Option.none_or] at hl
      have hno : first reqOf p o = none := by
        cases hf : first reqOf p o with
        | none => rfl
        | some w =>
          exfalso
          obtain ⟨L, c, hat, hs, _⟩ := first_some hf
          have hnone := lastOf_none.1 hb
          have hmw : ∀ L' v og q, Ev.write L' v og q ∈ b → strip L' p = some [] → False := by
            intro L' v og q hm hs'
            have := hnone _ hm
            simp [reqEv, hs'] at this
          have hok := ho.nodes L c hat
          cases hcv : c.value with
          | some w =>
            obtain ⟨x, t, q, e, _⟩ := hok.val w hcv
            exact hmw L w.1 w.2 q (by rw [e]; simp) hs
          | none =>
            rcases hok.nov hcv with h | ⟨L', q, h1, h2⟩ | ⟨L', v, og, q, h1, h2⟩
            · subst h
              exact hp0 (Option.some.inj hs)
            · have : covers L' p = false := hclb _ h1
              rw [covers_of_prefix h2 hs] at this; cases this
            · have : covers L' p = true → strip L' p = some [] := hclb _ h1
              exact hmw L' v og q h1 (this (covers_of_prefix h2 hs))
      rw [r2 hno]
      exact hn.req p hp0 hcla hl

end Sparta.PTree
