import Verif.Scheduler.Spec
/-!
The invariant of the scheduler and its preservation by every operation.
-/
namespace Sparta.Scheduler

theorem pending_snoc (tr : List Obs) (o : Obs) : pending (tr ++ [o]) = pendStep (pending tr) o := by
  simp [pending]

theorem fires_append (a b : List Obs) : fires (a ++ b) = fires a ++ fires b := by
  induction a with
  | nil => rfl
  | cons o os ih => cases o <;> simp [fires, ih]

theorem mem_fires {tr : List Obs} {r : Req} : r ∈ fires tr ↔ ∃ t, Obs.fire r t ∈ tr := by
  induction tr with
  | nil => simp [fires]
  | cons o os ih =>
    cases o with
    | fire r' t =>
      simp only [fires, List.mem_cons, ih]
      constructor
      · rintro (rfl | ⟨t', h⟩)
        · exact ⟨t, Or.inl rfl⟩
        · exact ⟨t', Or.inr h⟩
      · rintro ⟨t', h | h⟩
        · cases h; exact Or.inl rfl
        · exact Or.inr ⟨t', h⟩
    | _ => simp [fires, ih]

/-- `x` is the `i`-th entry of group `g` of quantum `q` -/
def At (q : Quantum) (g i : Nat) (x : Entry) : Prop := (q.groups g)[i]? = some x

/-- request `r` sits in the queue, ignoring the first `k` entries of the group being fired -/
def InQ (s : St) (k : Nat) (r : Req) : Prop :=
  ∃ q ∈ s.queue, q.tick = r.due ∧ ∃ i, At q r.grp i ⟨r.rid, some r.ev, r.cont⟩ ∧
    (q.tick = s.tick → r.grp = s.grp → k ≤ i)

/-- where the run stands, and what has been fired so far -/
def Phase (s : St) (k : Nat) : Prop :=
  match s.pc with
  | .idle => k = 0 ∧ (∀ q ∈ s.queue, s.tick ≤ q.tick) ∧ (∀ f ∈ fires s.trace, f.due < s.tick)
  | .loop => k = 0 ∧ (∀ q ∈ s.queue, s.tick ≤ q.tick) ∧ (∀ f ∈ fires s.trace, f.due ≤ s.tick) ∧
      (∀ f ∈ fires s.trace, ∀ q ∈ s.queue, f.due < q.tick) ∧
      (s.running = false → ∀ q ∈ s.queue, s.tick < q.tick) ∧ (s.running = true → s.queue ≠ [])
  | .firing => ∃ q qs, s.queue = q :: qs ∧ q.tick = s.tick ∧
      (∀ f ∈ fires s.trace, f.due < s.tick ∨ (f.due = s.tick ∧ f.grp ≤ s.grp)) ∧
      (∀ g, g < s.grp → q.groups g = []) ∧ k ≤ (q.groups s.grp).length
  | .aborted => True

structure Inv (cfg : Cfg) (s : St) (k : Nat) : Prop where
  sorted : s.queue.Pairwise (fun a b => a.tick < b.tick)
  rids : ∀ q ∈ s.queue, ∀ g, (q.groups g).Pairwise (fun a b => a.rid < b.rid)
  ent : ∀ q ∈ s.queue, ∀ g, ∀ x ∈ q.groups g, q.first ≤ g ∧ g < cfg.nGroups ∧ x.rid < s.rid
  own : ∀ q ∈ s.queue, ∀ g, ∀ x ∈ q.groups g, ∀ e, x.ev = some e → g = cfg.fgEv e
  agree : ∀ r, r ∈ pending s.trace ↔ InQ s k r
  firedRid : ∀ f ∈ fires s.trace, f.rid < s.rid
  firesSorted : (fires s.trace).Pairwise Req.lt
  before : ∀ f ∈ fires s.trace, ∀ r ∈ pending s.trace, f.lt r
  contLe : ∀ r ∈ pending s.trace, r.cont = true → r.due ≤ s.latest
  valid : ∀ pre r t post, s.trace = pre ++ Obs.fire r t :: post → r ∈ pending pre ∧ t = r.due
  accOk : ∀ pre r now rel post, s.trace = pre ++ Obs.accept r now rel :: post →
    r.due = now + rel ∧ r.grp = cfg.fgEv r.ev ∧ (∀ r' n' l', Obs.accept r' n' l' ∈ pre → r'.rid < r.rid) ∧ r.rid < s.rid
  phase : Phase s k

theorem snoc_split {α : Type} {a pre post : List α} {o x : α} (h : a ++ [o] = pre ++ x :: post) :
    (pre = a ∧ x = o ∧ post = []) ∨ ∃ post', post = post' ++ [o] ∧ a = pre ++ x :: post' := by
  rcases List.eq_nil_or_concat post with rfl | ⟨p, y, rfl⟩
  · left
    have := List.append_inj' h rfl
    simp_all
  · right
    refine ⟨p, ?_, ?_⟩
    · have h' : a ++ [o] = (pre ++ x :: p) ++ [y] := by simpa using h
      have := List.append_inj' h' rfl
      simp_all
    · have h' : a ++ [o] = (pre ++ x :: p) ++ [y] := by simpa using h
      have := List.append_inj' h' rfl
      simp_all

theorem Inv.init (cfg : Cfg) : Inv cfg St.init 0 where
  sorted := by simp [St.init]
  rids := by simp [St.init]
  ent := by simp [St.init]
  own := by simp [St.init]
  agree := by simp [St.init, pending, InQ]
  firedRid := by simp [St.init, fires]
  firesSorted := by simp [St.init, fires]
  before := by simp [St.init, fires]
  contLe := by simp [St.init, pending]
  valid := by simp [St.init]
  accOk := by simp [St.init]
  phase := by simp [St.init, Phase, fires]

/-! ### the queue walk -/

theorem withQuantum_spec {l : List Quantum} {t first : Nat} {f : Quantum → Quantum}
    (hs : l.Pairwise (fun a b => a.tick < b.tick)) (hf : ∀ q, (f q).tick = q.tick) :
    (∃ a q b, l = a ++ q :: b ∧ q.tick = t ∧ withQuantum t first f l = a ++ f q :: b ∧ hasQuantum t l = true ∧
      ∀ g, groupAt t g l = q.groups g) ∨
    (∃ a b, l = a ++ b ∧ (∀ q ∈ a, q.tick < t) ∧ (∀ q ∈ b, t < q.tick) ∧
      withQuantum t first f l = a ++ f ⟨t, fun _ => [], first⟩ :: b ∧ hasQuantum t l = false ∧
      ∀ g, groupAt t g l = []) := by
  induction l with
  | nil => exact Or.inr ⟨[], [], by simp [withQuantum, hasQuantum, groupAt]⟩
  | cons q qs ih =>
    rw [List.pairwise_cons] at hs
    by_cases h1 : q.tick = t
    · left
      exact ⟨[], q, qs, by simp [withQuantum, hasQuantum, groupAt, h1]⟩
    · by_cases h2 : t < q.tick
      · right
        refine ⟨[], q :: qs, rfl, by simp, ?_, by simp [withQuantum, h1, h2], by simp [hasQuantum, h1, h2],
          by simp [groupAt, h1, h2]⟩
        intro x hx
        rcases List.mem_cons.1 hx with rfl | hx
        · exact h2
        · have := hs.1 x hx; omega
      · rcases ih hs.2 with ⟨a, q', b, e, e2, e3, e4, e5⟩ | ⟨a, b, e, e2, e3, e4, e5, e6⟩
        · left
          exact ⟨q :: a, q', b, by simp [e], e2, by simp [withQuantum, h1, h2, e3], by simp [hasQuantum, h1, h2, e4],
            by simp [groupAt, h1, h2, e5]⟩
        · right
          refine ⟨q :: a, b, by simp [e], ?_, e3, by simp [withQuantum, h1, h2, e4], by simp [hasQuantum, h1, h2, e5],
            by simp [groupAt, h1, h2, e6]⟩
          intro x hx
          rcases List.mem_cons.1 hx with rfl | hx
          · omega
          · exact e2 x hx

/-- uniform description of adding an entry: one quantum of the new queue is `addEvent` of a quantum that is
either the old one with that tick or an empty one -/
theorem withQuantum_add {l : List Quantum} {t first g : Nat} {x : Entry}
    (hs : l.Pairwise (fun a b => a.tick < b.tick)) :
    ∃ a b q0, withQuantum t first (·.addEvent g x) l = a ++ q0.addEvent g x :: b ∧ q0.tick = t ∧
      (∀ q ∈ a, q ∈ l ∧ q.tick < t) ∧ (∀ q ∈ b, q ∈ l ∧ t < q.tick) ∧
      (q0 ∈ l ∨ ((∀ g, q0.groups g = []) ∧ ∀ q ∈ l, q.tick ≠ t)) ∧
      (∀ q ∈ l, q ∈ a ∨ q = q0 ∨ q ∈ b) ∧ (a ++ b).Pairwise (fun a b => a.tick < b.tick) ∧
      (∀ g', groupAt t g' l = q0.groups g') ∧ (l = a ++ q0 :: b ∨ l = a ++ b) := by
  rcases withQuantum_spec (t := t) (first := first) (f := (·.addEvent g x)) hs (fun _ => rfl) with
    ⟨a, q, b, e, e2, e3, _, e5⟩ | ⟨a, b, e, e2, e3, e4, _, e6⟩
  · subst e
    rw [List.pairwise_append, List.pairwise_cons] at hs
    obtain ⟨h1, ⟨h2, h3⟩, h4⟩ := hs
    refine ⟨a, b, q, e3, e2, ?_, ?_, Or.inl (by simp), ?_, ?_, e5, Or.inl rfl⟩
    · intro x hx; exact ⟨by simp [hx], by have := h4 x hx q (by simp); omega⟩
    · intro x hx; exact ⟨by simp [hx], by have := h2 x hx; omega⟩
    · intro x hx; simpa using hx
    · rw [List.pairwise_append]
      exact ⟨h1, h3, fun x hx y hy => h4 x hx y (by simp [hy])⟩
  · refine ⟨a, b, ⟨t, fun _ => [], first⟩, e4, rfl, ?_, ?_, Or.inr ⟨fun _ => rfl, ?_⟩, ?_, e ▸ hs, e6, Or.inr e⟩
    · intro x hx; exact ⟨by simp [e, hx], e2 x hx⟩
    · intro x hx; exact ⟨by simp [e, hx], e3 x hx⟩
    · intro x hx
      rw [e] at hx
      rcases List.mem_append.1 hx with h | h
      · have := e2 x h; omega
      · have := e3 x h; omega
    · intro x hx
      rw [e] at hx
      rcases List.mem_append.1 hx with h | h
      · exact Or.inl h
      · exact Or.inr (Or.inr h)

theorem pairwise_tick_inj {l : List Quantum} (hs : l.Pairwise (fun a b => a.tick < b.tick)) {q q' : Quantum}
    (h : q ∈ l) (h' : q' ∈ l) (e : q.tick = q'.tick) : q = q' := by
  induction l with
  | nil => simp at h
  | cons a l ih =>
    rw [List.pairwise_cons] at hs
    rcases List.mem_cons.1 h with rfl | h1 <;> rcases List.mem_cons.1 h' with h2 | h2
    · exact h2.symm
    · have := hs.1 _ h2; omega
    · subst h2; have := hs.1 _ h1; omega
    · exact ih hs.2 h1 h2

/-! ### accepting a request -/

theorem addEvent_groups (q : Quantum) (g g' : Nat) (x : Entry) :
    (q.addEvent g x).groups g' = if g' = g then q.groups g ++ [x] else q.groups g' := rfl

theorem At.lt {q : Quantum} {g i : Nat} {x : Entry} (h : At q g i x) : i < (q.groups g).length := by
  rcases List.getElem?_eq_some_iff.1 h with ⟨h, _⟩; exact h

theorem At.mem {q : Quantum} {g i : Nat} {x : Entry} (h : At q g i x) : x ∈ q.groups g :=
  List.mem_of_getElem? h

theorem At_addEvent {q : Quantum} {g g' i : Nat} {x y : Entry} :
    At (q.addEvent g x) g' i y ↔ At q g' i y ∨ (g' = g ∧ i = (q.groups g).length ∧ y = x) := by
  unfold At
  rw [addEvent_groups]
  by_cases hg : g' = g
  · subst hg
    rw [if_pos rfl, List.getElem?_append]
    split
    · rename_i h
      constructor
      · exact Or.inl
      · rintro (h' | ⟨_, h', _⟩)
        · exact h'
        · omega
    · rename_i h
      constructor
      · intro h'
        rcases Nat.eq_or_lt_of_le (Nat.le_of_not_lt h) with h2 | h2
        · rw [← h2] at h'; simp at h'; exact Or.inr ⟨rfl, h2.symm, h'.symm⟩
        · rw [List.getElem?_eq_none (by simp; omega)] at h'; cases h'
      · rintro (h' | ⟨_, h', h2⟩)
        · exact absurd (At.lt h') h
        · subst h'; simp [h2]
  · rw [if_neg hg]
    constructor
    · exact Or.inl
    · rintro (h' | ⟨h', _⟩)
      · exact h'
      · exact absurd h' hg

theorem Inv.add {cfg : Cfg} {s : St} {k : Nat} (I : Inv cfg s k) (hpc : s.pc = .idle ∨ s.pc = .firing)
    {ev : Ev} {g rel : Nat} {cont : Bool} (hg : g = cfg.fgEv ev) (hn : g < cfg.nGroups)
    (h0 : rel = 0 → s.grp ≤ g) {fr : List Nat} {first L : Nat} {fin : Bool} (hL : s.latest ≤ L)
    (hc : cont = true → s.tick + rel ≤ L) :
    Inv cfg { s with queue := withQuantum (s.tick + rel) first (·.addEvent g ⟨s.rid, some ev, cont⟩) s.queue,
                     free := fr, rid := s.rid + 1,
                     trace := s.trace ++ [.accept ⟨s.rid, ev, s.tick + rel, g, cont⟩ s.tick rel],
                     finished := fin, latest := L } k := by
  obtain ⟨a, b, q0, eq, et, ha, hb, hq0, hl, hab, _, _⟩ :=
    withQuantum_add (t := s.tick + rel) (first := first) (g := g) (x := ⟨s.rid, some ev, cont⟩) I.sorted
  have hfr : fires (s.trace ++ [.accept ⟨s.rid, ev, s.tick + rel, g, cont⟩ s.tick rel]) = fires s.trace := by
    simp [fires_append, fires]
  have hpe : pending (s.trace ++ [.accept ⟨s.rid, ev, s.tick + rel, g, cont⟩ s.tick rel]) =
    ⟨s.rid, ev, s.tick + rel, g, cont⟩ :: pending s.trace := by simp [pending_snoc, pendStep]
  have hlt : ∀ f ∈ fires s.trace, f.lt ⟨s.rid, ev, s.tick + rel, g, cont⟩ := by
    intro f hf
    have h1 := I.firedRid f hf
    have h2 := I.phase
    unfold Req.lt
    simp only
    rcases hpc with hp | hp <;> simp only [Phase, hp] at h2
    · have := h2.2.2 f hf; omega
    · obtain ⟨q, qs, _, _, h3, _⟩ := h2
      rcases h3 f hf with h4 | ⟨h4, h5⟩
      · omega
      · by_cases hr : rel = 0
        · have := h0 hr; omega
        · omega
  have hk : s.tick + rel = s.tick → g = s.grp → k ≤ (q0.groups g).length := by
    intro h1 h2
    have h3 := I.phase
    rcases hpc with hp | hp <;> simp only [Phase, hp] at h3
    · omega
    · obtain ⟨q, qs, e1, e2, _, _, e5⟩ := h3
      rcases hq0 with h | ⟨_, h⟩
      · have : q0 = q := pairwise_tick_inj I.sorted h (by simp [e1]) (by omega)
        rw [this, h2]; exact e5
      · exact absurd (e2.trans h1.symm) (h q (by simp [e1]))
  constructor
  · show List.Pairwise _ (withQuantum _ _ _ _)
    rw [eq, List.pairwise_append, List.pairwise_cons]
    rw [List.pairwise_append] at hab
    refine ⟨hab.1, ⟨fun q hq => ?_, hab.2.1⟩, ?_⟩
    · show q0.tick < _; have := (hb q hq).2; omega
    · intro q hq q' hq'
      rcases List.mem_cons.1 hq' with rfl | h
      · show _ < q0.tick; have := (ha q hq).2; omega
      · exact hab.2.2 q hq q' h
  · show ∀ q ∈ withQuantum _ _ _ _, _
    rw [eq]
    intro q hq g'
    rcases List.mem_append.1 hq with h | h
    · exact I.rids q (ha q h).1 g'
    · rcases List.mem_cons.1 h with rfl | h
      · rw [addEvent_groups]
        split
        · rw [List.pairwise_append]
          rcases hq0 with h' | ⟨h', _⟩
          · refine ⟨I.rids q0 h' g, by simp, ?_⟩
            intro y hy z hz
            have := (I.ent q0 h' g y hy).2.2
            simp at hz; subst hz; exact this
          · simp [h']
        · rcases hq0 with h' | ⟨h', _⟩
          · exact I.rids q0 h' g'
          · simp [h']
      · exact I.rids q (hb q h).1 g'
  · show ∀ q ∈ withQuantum _ _ _ _, _
    rw [eq]
    intro q hq g' x hx
    show _ ∧ _ ∧ x.rid < s.rid + 1
    rcases List.mem_append.1 hq with h | h
    · have := I.ent q (ha q h).1 g' x hx; omega
    · rcases List.mem_cons.1 h with rfl | h
      · rw [addEvent_groups] at hx
        show min q0.first g ≤ g' ∧ _
        split at hx
        · rename_i hgg
          rcases List.mem_append.1 hx with hx | hx
          · rcases hq0 with h' | ⟨h', _⟩
            · have := I.ent q0 h' g x hx; omega
            · simp [h'] at hx
          · simp at hx; subst hx; simp only; omega
        · rcases hq0 with h' | ⟨h', _⟩
          · have := I.ent q0 h' g' x hx; omega
          · simp [h'] at hx
      · have := I.ent q (hb q h).1 g' x hx; omega
  · show ∀ q ∈ withQuantum _ _ _ _, _
    rw [eq]
    intro q hq g' x hx e he
    rcases List.mem_append.1 hq with h | h
    · exact I.own q (ha q h).1 g' x hx e he
    · rcases List.mem_cons.1 h with rfl | h
      · rw [addEvent_groups] at hx
        split at hx
        · rename_i hgg
          rcases List.mem_append.1 hx with hx | hx
          · rcases hq0 with h' | ⟨h', _⟩
            · rw [hgg]; exact I.own q0 h' g x hx e he
            · simp [h'] at hx
          · simp at hx; subst hx; simp at he; subst he; omega
        · rcases hq0 with h' | ⟨h', _⟩
          · exact I.own q0 h' g' x hx e he
          · simp [h'] at hx
      · exact I.own q (hb q h).1 g' x hx e he
  · intro r
    show r ∈ pending (_ ++ _) ↔ ∃ q ∈ withQuantum _ _ _ _, _ ∧ ∃ i, _ ∧ (q.tick = s.tick → r.grp = s.grp → k ≤ i)
    rw [hpe, eq, List.mem_cons, I.agree r]
    constructor
    · rintro (rfl | ⟨q, hq, e1, i, e2, e3⟩)
      · exact ⟨_, List.mem_append_right _ (List.mem_cons_self ..), et, (q0.groups g).length,
          At_addEvent.2 (Or.inr ⟨rfl, rfl, rfl⟩), fun h1 h2 => hk (et.symm.trans h1) h2⟩
      · rcases hl q hq with h | h | h
        · exact ⟨q, by simp [h], e1, i, e2, e3⟩
        · subst h
          exact ⟨_, List.mem_append_right _ (List.mem_cons_self ..), e1, i, At_addEvent.2 (Or.inl e2), e3⟩
        · exact ⟨q, by simp [h], e1, i, e2, e3⟩
    · rintro ⟨q, hq, e1, i, e2, e3⟩
      rcases List.mem_append.1 hq with h | h
      · exact Or.inr ⟨q, (ha q h).1, e1, i, e2, e3⟩
      · rcases List.mem_cons.1 h with rfl | h
        · rcases At_addEvent.1 e2 with h' | ⟨h1, h2, h3⟩
          · rcases hq0 with hm | ⟨hm, _⟩
            · exact Or.inr ⟨q0, hm, e1, i, h', e3⟩
            · have := h'.lt; simp [hm] at this
          · left
            have e1' : q0.tick = r.due := e1
            cases r
            simp only [Entry.mk.injEq, Option.some.injEq] at h3
            simp_all
        · exact Or.inr ⟨q, (hb q h).1, e1, i, e2, e3⟩
  · show ∀ f ∈ fires (_ ++ _), _ < s.rid + 1
    rw [hfr]
    intro f hf
    have := I.firedRid f hf; omega
  · show List.Pairwise _ (fires (_ ++ _))
    rw [hfr]; exact I.firesSorted
  · show ∀ f ∈ fires (_ ++ _), ∀ r ∈ pending (_ ++ _), _
    rw [hfr, hpe]
    intro f hf r hr
    rcases List.mem_cons.1 hr with rfl | hr
    · exact hlt f hf
    · exact I.before f hf r hr
  · show ∀ r ∈ pending (_ ++ _), _ → _ ≤ L
    rw [hpe]
    intro r hr hcr
    rcases List.mem_cons.1 hr with rfl | hr
    · exact hc hcr
    · exact Nat.le_trans (I.contLe r hr hcr) hL
  · intro pre r t post h
    rcases snoc_split h with ⟨_, h2, _⟩ | ⟨p, _, h2⟩
    · cases h2
    · exact I.valid pre r t p h2
  · intro pre r now rel' post h
    show _ ∧ _ ∧ _ ∧ r.rid < s.rid + 1
    rcases snoc_split h with ⟨h1, h2, _⟩ | ⟨p, _, h2⟩
    · cases h2
      subst h1
      refine ⟨rfl, hg, ?_, by simp⟩
      intro r' n' l' hm
      obtain ⟨p1, p2, hp⟩ := List.append_of_mem hm
      exact (I.accOk p1 r' n' l' p2 hp).2.2.2
    · obtain ⟨h3, h4, h5, h6⟩ := I.accOk pre r now rel' p h2
      exact ⟨h3, h4, h5, by omega⟩
  · have h3 := I.phase
    rcases hpc with hp | hp <;> simp only [Phase, hp] at h3 ⊢
    · rw [hfr]
      refine ⟨h3.1, ?_, h3.2.2⟩
      rw [eq]
      intro q hq
      rcases List.mem_append.1 hq with h | h
      · exact h3.2.1 q (ha q h).1
      · rcases List.mem_cons.1 h with rfl | h
        · show _ ≤ q0.tick; omega
        · exact h3.2.1 q (hb q h).1
    · rw [hfr]
      obtain ⟨q, qs, e1, e2, e3, e4, e5⟩ := h3
      rw [e1]
      unfold withQuantum
      by_cases hr : rel = 0
      · rw [if_pos (by omega)]
        refine ⟨_, _, rfl, e2, e3, ?_, ?_⟩
        · intro g' hg'
          rw [addEvent_groups, if_neg (by have := h0 hr; omega)]
          exact e4 g' hg'
        · rw [addEvent_groups]
          split
          · rename_i h; rw [← h]; simp; omega
          · exact e5
      · rw [if_neg (by omega), if_neg (by omega)]
        exact ⟨q, _, rfl, e2, e3, e4, e5⟩

/-! ### everything else that happens outside of the loop -/

theorem InQ.congr {s s' : St} {k : Nat} (hq : s'.queue = s.queue) (ht : s'.tick = s.tick) (hg : s'.grp = s.grp)
    (r : Req) : InQ s' k r ↔ InQ s k r := by simp only [InQ, hq, ht, hg]

theorem Inv.congr {cfg : Cfg} {s s' : St} {k : Nat} (I : Inv cfg s k) (hq : s'.queue = s.queue)
    (ht : s'.tick = s.tick) (hg : s'.grp = s.grp) (hr : s'.rid = s.rid) (htr : s'.trace = s.trace)
    (hl : s.latest ≤ s'.latest) (hp : Phase s' k) : Inv cfg s' k where
  sorted := hq ▸ I.sorted
  rids := hq ▸ I.rids
  ent := by rw [hq, hr]; exact I.ent
  own := hq ▸ I.own
  agree := by intro r; rw [htr, InQ.congr hq ht hg]; exact I.agree r
  firedRid := by rw [htr, hr]; exact I.firedRid
  firesSorted := htr ▸ I.firesSorted
  before := htr ▸ I.before
  contLe := by rw [htr]; intro r h1 h2; exact Nat.le_trans (I.contLe r h1 h2) hl
  valid := htr ▸ I.valid
  accOk := by rw [htr, hr]; exact I.accOk
  phase := hp

theorem Phase.congr {s s' : St} {k : Nat} (h : Phase s k) (hq : s'.queue = s.queue)
    (ht : s'.tick = s.tick) (hg : s'.grp = s.grp) (htr : s'.trace = s.trace) (hp : s'.pc = s.pc)
    (hr : s'.running = s.running) : Phase s' k := by
  unfold Phase at *
  rw [hq, ht, hg, htr, hp, hr]; exact h

theorem enqueue_noteCont_merged {s : St} {ev : Ev} {g rel : Nat} {cont uniq : Bool}
    (h : (uniq && (groupAt (s.tick + rel) g s.queue).any (fun x => x.ev == some ev)) = true) :
    (s.enqueue ev g rel cont uniq) = s := by
  unfold St.enqueue
  simp only [h, if_true]

theorem Inv.noteCont {cfg : Cfg} {s : St} {k : Nat} (I : Inv cfg s k) (t : Nat) (c : Bool) :
    Inv cfg (s.noteCont t c) k := by
  unfold St.noteCont
  split
  · exact I.congr rfl rfl rfl rfl rfl (Nat.le_max_left ..) (I.phase.congr rfl rfl rfl rfl rfl rfl)
  · exact I

theorem Inv.schedule {cfg : Cfg} {s s' : St} {k : Nat} (I : Inv cfg s k) (hpc : s.pc = .idle ∨ s.pc = .firing)
    {ev : Ev} {rel : Nat} {cont uniq : Bool} (h : s.scheduleEv cfg ev rel cont uniq = some s') :
    Inv cfg s' k := by
  unfold St.scheduleEv at h
  simp only at h
  split at h
  · cases h
  rename_i h1
  split at h
  · cases h
  rename_i h2
  cases h
  by_cases hm : (uniq && (groupAt (s.tick + rel) (cfg.fgEv ev) s.queue).any (fun x => x.ev == some ev)) = true
  · rw [enqueue_noteCont_merged hm]
    exact I.noteCont _ _
  · unfold St.enqueue St.noteCont
    simp only [hm, if_false, Bool.false_eq_true]
    cases cont with
    | true =>
      exact I.add hpc rfl (by omega) (by omega) (Nat.le_max_left ..) (fun _ => Nat.le_max_right ..)
    | false =>
      exact I.add hpc rfl (by omega) (by omega) (Nat.le_refl _) (by simp)

theorem schedule_fields {cfg : Cfg} {s s' : St} {ev : Ev} {rel : Nat} {cont uniq : Bool}
    (h : s.scheduleEv cfg ev rel cont uniq = some s') :
    s'.tick = s.tick ∧ s'.grp = s.grp ∧ s'.pc = s.pc ∧ s'.running = s.running ∧ s'.idx = s.idx ∧
    s'.async = s.async ∧ s'.elapsed = s.elapsed ∧ s'.firstTick = s.firstTick := by
  unfold St.scheduleEv at h
  simp only at h
  split at h
  · cases h
  split at h
  · cases h
  cases h
  unfold St.enqueue St.noteCont
  simp only
  split <;> split <;> exact ⟨rfl, rfl, rfl, rfl, rfl, rfl, rfl, rfl⟩

/-- both flavours of `cancelEvent`: withdraw `e` from every quantum whose tick satisfies `P` -/
def cancelWhere (e g : Nat) (P : Nat → Bool) (l : List Quantum) : List Quantum :=
  l.map (fun q => if P q.tick then { q with groups := upd q.groups g (cancelIn e (q.groups g)) } else q)

theorem cancelQuantum_eq {e g t : Nat} {l : List Quantum} (hs : l.Pairwise (fun a b => a.tick < b.tick)) :
    cancelQuantum e g t l = cancelWhere e g (fun x => x == t) l := by
  induction l with
  | nil => rfl
  | cons q qs ih =>
    rw [List.pairwise_cons] at hs
    unfold cancelQuantum cancelWhere
    simp only [List.map_cons]
    by_cases h : q.tick = t
    · simp only [h, if_true, beq_self_eq_true]
      congr 1
      have : ∀ q' ∈ qs, (if (q'.tick == t) = true then { q' with groups := upd q'.groups g (cancelIn e (q'.groups g)) } else q') = q' := by
        intro q' hq'
        have := hs.1 q' hq'
        rw [if_neg (by simp; omega)]
      rw [List.map_congr_left this]
      simp
    · simp only [h, if_false, beq_iff_eq]
      rw [ih hs.2]
      simp [cancelWhere]

theorem cancelIn_at {e : Nat} {l : List Entry} {i rid : Nat} {ev : Ev} {c : Bool} :
    (cancelIn e l)[i]? = some ⟨rid, some ev, c⟩ ↔ l[i]? = some ⟨rid, some ev, c⟩ ∧ ev ≠ .user e := by
  unfold cancelIn
  rw [List.getElem?_map]
  cases h : l[i]? with
  | none => simp
  | some x =>
    obtain ⟨xr, xe, xc⟩ := x
    simp only [Option.map_some, Option.some.injEq]
    split
    · rename_i hx
      subst hx
      simp only [Entry.mk.injEq]
      constructor
      · rintro ⟨_, h, _⟩; cases h
      · rintro ⟨⟨_, h, _⟩, h2⟩; cases h; exact absurd rfl h2
    · rename_i hx
      simp only [Entry.mk.injEq]
      constructor
      · rintro ⟨h1, h2, h3⟩
        refine ⟨⟨h1, h2, h3⟩, ?_⟩
        rintro rfl; exact hx h2
      · exact fun h => h.1

theorem cancelIn_length (e : Nat) (l : List Entry) : (cancelIn e l).length = l.length := by simp [cancelIn]

theorem cancelIn_mem {e : Nat} {l : List Entry} {x : Entry} (h : x ∈ cancelIn e l) :
    ∃ y ∈ l, y.rid = x.rid ∧ (x.ev = y.ev ∨ x.ev = none) := by
  simp only [cancelIn, List.mem_map] at h
  obtain ⟨y, hy, rfl⟩ := h
  refine ⟨y, hy, ?_⟩
  split <;> simp

theorem cancelIn_rids {e : Nat} {l : List Entry} (h : l.Pairwise (fun a b => a.rid < b.rid)) :
    (cancelIn e l).Pairwise (fun a b => a.rid < b.rid) := by
  unfold cancelIn
  rw [List.pairwise_map]
  refine h.imp ?_
  intro a b hab
  split <;> split <;> exact hab

theorem cancelWhere_mem {e g : Nat} {P : Nat → Bool} {l : List Quantum} {q : Quantum}
    (h : q ∈ cancelWhere e g P l) : ∃ q' ∈ l, q.tick = q'.tick ∧ q.first = q'.first ∧
      ∀ g', q.groups g' = if P q'.tick = true ∧ g' = g then cancelIn e (q'.groups g') else q'.groups g' := by
  simp only [cancelWhere, List.mem_map] at h
  obtain ⟨q', hq', rfl⟩ := h
  refine ⟨q', hq', ?_⟩
  split
  · rename_i hp
    refine ⟨rfl, rfl, ?_⟩
    intro g'
    show upd _ _ _ _ = _
    by_cases hg : g' = g
    · subst hg; simp [hp]
    · rw [upd_other _ _ hg, if_neg (by simp [hg])]
  · rename_i hp
    simp [hp]

theorem cancelWhere_mem' {e g : Nat} {P : Nat → Bool} {l : List Quantum} {q' : Quantum}
    (h : q' ∈ l) : ∃ q ∈ cancelWhere e g P l, q.tick = q'.tick ∧ q.first = q'.first ∧
      ∀ g', q.groups g' = if P q'.tick = true ∧ g' = g then cancelIn e (q'.groups g') else q'.groups g' := by
  refine ⟨_, List.mem_map.2 ⟨q', h, rfl⟩, ?_⟩
  split
  · rename_i hp
    refine ⟨rfl, rfl, ?_⟩
    intro g'
    show upd _ _ _ _ = _
    by_cases hg : g' = g
    · subst hg; simp [hp]
    · rw [upd_other _ _ hg, if_neg (by simp [hg])]
  · rename_i hp
    simp [hp]

theorem Inv.cancelWhere {cfg : Cfg} {s : St} {k : Nat} (I : Inv cfg s k) (e : Nat) (P : Nat → Bool) (o : Obs)
    (ho : ∀ r, o.covers r = (decide (r.ev = .user e) && P r.due)) (hno : ∀ r t, o ≠ .fire r t)
    (hna : ∀ r a b, o ≠ .accept r a b) :
    Inv cfg { s with queue := cancelWhere e (cfg.fg e) P s.queue, trace := s.trace ++ [o] } k := by
  have hfr : fires (s.trace ++ [o]) = fires s.trace := by
    cases o <;> simp_all [fires_append, fires]
  have hpe : pending (s.trace ++ [o]) = (pending s.trace).filter (fun x => !o.covers x) := by
    rw [pending_snoc]
    cases o <;> simp_all [pendStep]
  have hsub : ∀ r, r ∈ pending (s.trace ++ [o]) → r ∈ pending s.trace := by
    intro r; rw [hpe, List.mem_filter]; exact fun h => h.1
  constructor
  · show List.Pairwise _ (Scheduler.cancelWhere ..)
    unfold Scheduler.cancelWhere
    rw [List.pairwise_map]
    refine I.sorted.imp ?_
    intro a b hab
    split <;> split <;> exact hab
  · intro q hq g
    obtain ⟨q', hq', _, _, hgr⟩ := cancelWhere_mem hq
    rw [hgr]
    split
    · exact cancelIn_rids (I.rids q' hq' g)
    · exact I.rids q' hq' g
  · intro q hq g x hx
    obtain ⟨q', hq', _, hfi, hgr⟩ := cancelWhere_mem hq
    rw [hgr] at hx
    rw [hfi]
    show _ ∧ _ ∧ x.rid < s.rid
    split at hx
    · obtain ⟨y, hy, e1, _⟩ := cancelIn_mem hx
      rw [← e1]; exact I.ent q' hq' g y hy
    · exact I.ent q' hq' g x hx
  · intro q hq g x hx ev hev
    obtain ⟨q', hq', _, _, hgr⟩ := cancelWhere_mem hq
    rw [hgr] at hx
    split at hx
    · obtain ⟨y, hy, _, e2 | e2⟩ := cancelIn_mem hx
      · exact I.own q' hq' g y hy ev (e2 ▸ hev)
      · rw [e2] at hev; cases hev
    · exact I.own q' hq' g x hx ev hev
  · intro r
    show r ∈ pending (_ ++ _) ↔ ∃ q ∈ Scheduler.cancelWhere _ _ _ _, _ ∧ ∃ i, _ ∧ (q.tick = s.tick → r.grp = s.grp → k ≤ i)
    rw [hpe, List.mem_filter, I.agree r, ho]
    constructor
    · rintro ⟨⟨q', hq', e1, i, e2, e3⟩, hc⟩
      obtain ⟨q, hq, f1, _, f3⟩ := cancelWhere_mem' (e := e) (g := cfg.fg e) (P := P) hq'
      refine ⟨q, hq, f1.trans e1, i, ?_, by rw [f1]; exact e3⟩
      unfold At
      rw [f3]
      split
      · rename_i hp
        refine cancelIn_at.2 ⟨e2, ?_⟩
        rw [e1] at hp
        simp [hp.1] at hc
        exact hc
      · exact e2
    · rintro ⟨q, hq, e1, i, e2, e3⟩
      obtain ⟨q', hq', f1, _, f3⟩ := cancelWhere_mem hq
      unfold At at e2
      rw [f3] at e2
      have hAt : At q' r.grp i ⟨r.rid, some r.ev, r.cont⟩ := by
        split at e2
        · exact (cancelIn_at.1 e2).1
        · exact e2
      refine ⟨⟨q', hq', f1 ▸ e1, i, hAt, by rw [← f1]; exact e3⟩, ?_⟩
      by_cases hev : r.ev = .user e
      · have hg : r.grp = cfg.fg e := by
          have := I.own q' hq' r.grp _ hAt.mem r.ev rfl
          rw [hev] at this; exact this
        by_cases hp : P q'.tick = true
        · rw [if_pos ⟨hp, hg⟩] at e2
          exact absurd hev (cancelIn_at.1 e2).2
        · rw [← f1, e1] at hp
          simp [hp]
      · simp [hev]
  · show ∀ f ∈ fires (_ ++ _), _
    rw [hfr]; exact I.firedRid
  · show List.Pairwise _ (fires (_ ++ _))
    rw [hfr]; exact I.firesSorted
  · show ∀ f ∈ fires (_ ++ _), ∀ r ∈ pending (_ ++ _), _
    rw [hfr]
    intro f hf r hr
    exact I.before f hf r (hsub r hr)
  · show ∀ r ∈ pending (_ ++ _), _
    intro r hr
    exact I.contLe r (hsub r hr)
  · intro pre r t post h
    rcases snoc_split h with ⟨_, h2, _⟩ | ⟨p, _, h2⟩
    · exact absurd h2.symm (hno r t)
    · exact I.valid pre r t p h2
  · intro pre r now rel' post h
    rcases snoc_split h with ⟨h1, h2, _⟩ | ⟨p, _, h2⟩
    · exact absurd h2.symm (hna _ _ _)
    · exact I.accOk pre r now rel' p h2
  · have h3 := I.phase
    unfold Phase at h3 ⊢
    have hqt : ∀ {Q : Nat → Prop}, (∀ q ∈ s.queue, Q q.tick) →
        ∀ q ∈ Scheduler.cancelWhere e (cfg.fg e) P s.queue, Q q.tick := by
      intro Q h q hq
      obtain ⟨q', hq', f1, _, _⟩ := cancelWhere_mem hq
      rw [f1]; exact h q' hq'
    simp only [hfr]
    cases hp : s.pc <;> simp only [hp] at h3 ⊢
    · exact ⟨h3.1, hqt h3.2.1, h3.2.2⟩
    · refine ⟨h3.1, hqt h3.2.1, h3.2.2.1, fun f hf => hqt (h3.2.2.2.1 f hf), fun h => hqt (h3.2.2.2.2.1 h), ?_⟩
      intro h
      have := h3.2.2.2.2.2 h
      simpa [Scheduler.cancelWhere] using this
    · obtain ⟨q, qs, e1, e2, e3, e4, e5⟩ := h3
      rw [e1]
      refine ⟨_, _, rfl, ?_, e3, ?_, ?_⟩
      · dsimp only; split <;> exact e2
      · intro g hg
        dsimp only
        split
        · show upd _ _ _ _ = _
          by_cases h : g = cfg.fg e
          · subst h; simp [e4 _ hg, cancelIn]
          · rw [upd_other _ _ h]; exact e4 g hg
        · exact e4 g hg
      · dsimp only
        split
        · show k ≤ List.length (upd _ _ _ _)
          by_cases h : s.grp = cfg.fg e
          · rw [h, upd_same, cancelIn_length, ← h]; exact e5
          · rw [upd_other _ _ h]; exact e5
        · exact e5

theorem Inv.cancel {cfg : Cfg} {s : St} {k : Nat} (I : Inv cfg s k) (e : Nat) : Inv cfg (s.cancel cfg e) k := by
  have := I.cancelWhere e (fun _ => true) (.cancel e) (by simp [Obs.covers]) (by simp) (by simp)
  simpa [Scheduler.cancelWhere, St.cancel] using this

theorem Inv.cancelAt {cfg : Cfg} {s : St} {k : Nat} (I : Inv cfg s k) (e rel : Nat) :
    Inv cfg (s.cancelAt cfg e rel) k := by
  have := I.cancelWhere e (fun x => x == s.tick + rel) (.cancelAt e (s.tick + rel))
    (by intro r; simp [Obs.covers]; rfl) (by simp) (by simp)
  unfold St.cancelAt
  rw [cancelQuantum_eq I.sorted]
  exact this

theorem Inv.exec {cfg : Cfg} {s : St} {k : Nat} (I : Inv cfg s k) (hpc : s.pc = .idle ∨ s.pc = .firing)
    (c : Call) : Inv cfg (s.exec cfg c) k ∧ (s.exec cfg c).pc = s.pc := by
  cases c with
  | schedule e rel cont uniq =>
    simp only [St.exec]
    cases h : s.scheduleEv cfg (.user e) rel cont uniq with
    | none => exact ⟨I, rfl⟩
    | some s' => exact ⟨I.schedule hpc h, (schedule_fields h).2.2.1⟩
  | cancel e => exact ⟨I.cancel e, rfl⟩
  | cancelAt e rel => exact ⟨I.cancelAt e rel, rfl⟩
  | cancelAsync e =>
    exact ⟨Inv.cancel (s := { s with async := s.async.filter (fun a => a.e ≠ e) })
      (I.congr rfl rfl rfl rfl rfl (Nat.le_refl _) (I.phase.congr rfl rfl rfl rfl rfl rfl)) e, rfl⟩
  | stop =>
    refine ⟨I.congr rfl rfl rfl rfl rfl (Nat.le_refl _) ?_, rfl⟩
    have h := I.phase
    rcases hpc with hp | hp <;> simp only [St.exec, Phase, hp] at h ⊢
    · exact h
    · exact h
  | throw => exact ⟨I, rfl⟩

theorem Inv.abort {cfg : Cfg} {s : St} {k : Nat} (I : Inv cfg s k) : Inv cfg { s with pc := .aborted } k :=
  I.congr rfl rfl rfl rfl rfl (Nat.le_refl _) (by simp [Phase])

theorem Inv.execAll {cfg : Cfg} {s : St} {k : Nat} (I : Inv cfg s k) (hpc : s.pc = .firing) (cs : List Call) :
    Inv cfg (s.execAll cfg cs) k ∧ ((s.execAll cfg cs).pc = .firing ∨ (s.execAll cfg cs).pc = .aborted) := by
  induction cs generalizing s with
  | nil => exact ⟨I, Or.inl hpc⟩
  | cons c cs ih =>
    by_cases hc : c = .throw
    · subst hc; exact ⟨I.abort, Or.inr rfl⟩
    · have h1 := I.exec (Or.inr hpc) c
      have : s.execAll cfg (c :: cs) = (s.exec cfg c).execAll cfg cs := by
        cases c <;> first | rfl | exact absurd rfl hc
      rw [this]
      exact ih h1.1 (h1.2.trans hpc)

theorem InQ_zero {s : St} {r : Req} : InQ s 0 r ↔
    ∃ q ∈ s.queue, q.tick = r.due ∧ ∃ i, At q r.grp i ⟨r.rid, some r.ev, r.cont⟩ := by
  constructor
  · rintro ⟨q, h1, h2, i, h3, _⟩; exact ⟨q, h1, h2, i, h3⟩
  · rintro ⟨q, h1, h2, i, h3⟩; exact ⟨q, h1, h2, i, h3, fun _ _ => Nat.zero_le _⟩

theorem Inv.move {cfg : Cfg} {s s' : St} (I : Inv cfg s 0) (hq : s'.queue = s.queue)
    (hr : s'.rid = s.rid) (htr : s'.trace = s.trace)
    (hl : s.latest ≤ s'.latest) (hp : Phase s' 0) : Inv cfg s' 0 where
  sorted := hq ▸ I.sorted
  rids := hq ▸ I.rids
  ent := by rw [hq, hr]; exact I.ent
  own := hq ▸ I.own
  agree := by intro r; rw [htr, InQ_zero, hq, I.agree r, InQ_zero]
  firedRid := by rw [htr, hr]; exact I.firedRid
  firesSorted := htr ▸ I.firesSorted
  before := htr ▸ I.before
  contLe := by rw [htr]; intro r h1 h2; exact Nat.le_trans (I.contLe r h1 h2) hl
  valid := htr ▸ I.valid
  accOk := by rw [htr, hr]; exact I.accOk
  phase := hp

theorem pendStep_clear (p : List Req) : pendStep p .clear = [] := by
  simp [pendStep, Obs.covers]

theorem Inv.clearEvents {cfg : Cfg} {s : St} {k : Nat} (I : Inv cfg s k) (hp : s.pc = .idle) :
    Inv cfg s.clearEvents k := by
  have hfr : fires (s.trace ++ [Obs.clear]) = fires s.trace := by simp [fires_append, fires]
  have hpe : pending (s.trace ++ [Obs.clear]) = [] := by rw [pending_snoc, pendStep_clear]
  have h := I.phase
  simp only [Phase, hp] at h
  unfold St.clearEvents
  constructor
  · simp
  · simp
  · simp
  · simp
  · intro r; simp only [hpe, InQ]; simp
  · simp only [hfr]; exact I.firedRid
  · simp only [hfr]; exact I.firesSorted
  · simp only [hpe]; simp
  · simp only [hpe]; simp
  · intro pre r t post h
    rcases snoc_split h with ⟨_, h2, _⟩ | ⟨p, _, h2⟩
    · cases h2
    · exact I.valid pre r t p h2
  · intro pre r now rel' post h
    rcases snoc_split h with ⟨h1, h2, _⟩ | ⟨p, _, h2⟩
    · cases h2
    · exact I.accOk pre r now rel' p h2
  · simp only [Phase, hp, hfr]
    exact ⟨h.1, by simp, h.2.2⟩

theorem Inv.restartAt (cfg : Cfg) (s : St) (t : Nat) (hp : s.pc = .idle) : Inv cfg (s.restartAt t) 0 := by
  unfold St.restartAt St.clearEvents
  constructor
  · simp
  · simp
  · simp
  · simp
  · intro r; simp [pending, InQ]
  · simp [fires]
  · simp [fires]
  · simp [fires]
  · simp [pending]
  · simp
  · simp
  · simp [Phase, hp, fires]

theorem Inv.recover (cfg : Cfg) (s : St) (t : Nat) : Inv cfg (s.recover t) 0 :=
  Inv.restartAt cfg _ t rfl

theorem Inv.finish {cfg : Cfg} {s : St} (I : Inv cfg s 0) (h1 : ∀ q ∈ s.queue, s.tick < q.tick)
    (h2 : ∀ f ∈ fires s.trace, f.due ≤ s.tick) : Inv cfg s.finish 0 := by
  refine I.move rfl rfl rfl (Nat.le_refl _) ?_
  simp only [Phase, St.finish]
  exact ⟨trivial, fun q hq => h1 q hq, fun f hf => Nat.lt_succ_of_le (h2 f hf)⟩

theorem sorted_head_le {q : Quantum} {qs : List Quantum} (h : (q :: qs).Pairwise (fun a b => a.tick < b.tick)) :
    ∀ q' ∈ q :: qs, q.tick ≤ q'.tick := by
  intro q' hq'
  rcases List.mem_cons.1 hq' with rfl | h'
  · exact Nat.le_refl _
  · exact Nat.le_of_lt ((List.pairwise_cons.1 h).1 q' h')

theorem withQuantum_ne (t first : Nat) (f : Quantum → Quantum) (l : List Quantum) :
    withQuantum t first f l ≠ [] := by
  cases l with
  | nil => simp [withQuantum]
  | cons q qs => unfold withQuantum; split <;> (try split) <;> simp

theorem schedule_queue_ne {cfg : Cfg} {s s' : St} {ev : Ev} {rel : Nat} {cont uniq : Bool}
    (h : s.scheduleEv cfg ev rel cont uniq = some s') (hn : s.queue ≠ []) : s'.queue ≠ [] := by
  unfold St.scheduleEv at h
  simp only at h
  split at h
  · cases h
  split at h
  · cases h
  cases h
  unfold St.enqueue St.noteCont
  simp only
  split <;> split
  · exact hn
  · exact withQuantum_ne _ _ _ _
  · exact hn
  · exact withQuantum_ne _ _ _ _

/-- entering `run` always leaves the scheduler idle or at the top of its loop -/
theorem Inv.startRun {cfg : Cfg} {s : St} (I : Inv cfg s 0) (hp : s.pc = .idle) (n : Option Nat) (ex : Bool) :
    Inv cfg (s.startRun cfg n ex) 0 := by
  have h := I.phase
  simp only [Phase, hp] at h
  unfold St.startRun
  split
  · exact I
  have hloop : ∀ {s2 : St}, Inv cfg s2 0 → s2.pc = .idle → (s2.running = true → s2.queue ≠ []) →
      (s2.running = false → s2.queue = []) → Inv cfg { s2 with finished := !s2.running, pc := .loop } 0 := by
    intro s2 I2 hp2 hr hr'
    refine I2.congr rfl rfl rfl rfl rfl (Nat.le_refl _) ?_
    have h2 := I2.phase
    simp only [Phase, hp2] at h2 ⊢
    refine ⟨trivial, h2.2.1, fun f hf => Nat.le_of_lt (h2.2.2 f hf), ?_, ?_, hr⟩
    · intro f hf q hq
      exact Nat.lt_of_lt_of_le (h2.2.2 f hf) (h2.2.1 q hq)
    · intro hf; rw [hr' hf]; simp
  have I1 : Inv cfg { s with firstTick := false, running := !s.queue.isEmpty } 0 :=
    I.congr rfl rfl rfl rfl rfl (Nat.le_refl _) (by simp only [Phase, hp]; exact h)
  cases n with
  | none =>
    simp only
    refine hloop I1 hp ?_ ?_ <;> simp
  | some n =>
    simp only
    split
    · rename_i hw
      split
      · refine I.move rfl rfl rfl (Nat.le_refl _) ?_
        simp only [Phase, hp]
        refine ⟨trivial, ?_, fun f hf => Nat.lt_of_lt_of_le (h.2.2 f hf) (Nat.le_add_right _ _)⟩
        unfold St.nothingWithin at hw
        simp only at hw
        cases hq : s.queue with
        | nil => simp
        | cons q qs =>
          rw [hq] at hw
          simp only [decide_eq_true_eq] at hw
          intro q' hq'
          have := sorted_head_le (hq ▸ I.sorted) q' hq'
          omega
      · exact I.congr rfl rfl rfl rfl rfl (Nat.le_refl _) (by simp only [Phase, hp]; exact h)
    · rename_i hw
      have hne : s.queue ≠ [] := by
        intro hq; apply hw; simp [St.nothingWithin, hq]
      have hr1 : (!s.queue.isEmpty) = true := by simpa using hne
      cases hs : St.scheduleEv cfg { s with firstTick := false, running := !s.queue.isEmpty } .stop (n - 1) ex false with
      | none =>
        refine hloop I1 hp (fun _ => hne) ?_
        simp only [hr1]; simp
      | some s2 =>
        have hf := schedule_fields hs
        refine hloop (s2 := s2) (I1.schedule (Or.inl hp) hs) (hf.2.2.1.trans hp)
          (fun _ => schedule_queue_ne hs hne) ?_
        rw [hf.2.2.2.1, hr1]; simp

theorem Inv.drainAsync {cfg : Cfg} {as : List Async} {s s' : St} {k : Nat} (I : Inv cfg s k) (hpc : s.pc = .firing)
    (h : s.drainAsync cfg as = some s') : Inv cfg s' k ∧ s'.pc = .firing ∧ s'.idx = s.idx := by
  induction as generalizing s with
  | nil => cases h; exact ⟨I, hpc, rfl⟩
  | cons a as ih =>
    unfold St.drainAsync at h
    cases hs : s.scheduleEv cfg (.user a.e) a.rel a.cont false with
    | none => rw [hs] at h; cases h
    | some s1 =>
      rw [hs] at h
      have hf := schedule_fields hs
      obtain ⟨h1, h2, h3⟩ := ih (I.schedule (Or.inr hpc) hs) (hf.2.2.1.trans hpc) h
      exact ⟨h1, h2, h3.trans hf.2.2.2.2.1⟩

theorem Inv.drainStuck {cfg : Cfg} {as : List Async} {s : St} {k : Nat} (I : Inv cfg s k) (hpc : s.pc = .firing)
    (h : s.drainAsync cfg as = none) : Inv cfg (s.drainStuck cfg as) k ∧ (s.drainStuck cfg as).pc = .aborted := by
  induction as generalizing s with
  | nil => cases h
  | cons a as ih =>
    unfold St.drainAsync at h
    unfold St.drainStuck
    cases hs : s.scheduleEv cfg (.user a.e) a.rel a.cont false with
    | none => exact ⟨I.abort, rfl⟩
    | some s1 =>
      rw [hs] at h
      have hf := schedule_fields hs
      exact ih (I.schedule (Or.inr hpc) hs) (hf.2.2.1.trans hpc) h

theorem Inv.beginQuantum {cfg : Cfg} {s : St} (I : Inv cfg s 0) (hp : s.pc = .loop)
    {q : Quantum} {qs : List Quantum} (hq : s.queue = q :: qs) (seen : Bool) :
    Inv cfg (s.beginQuantum cfg q seen) 0 ∧
      ((s.beginQuantum cfg q seen).pc = .aborted ∨
        ((s.beginQuantum cfg q seen).pc = .firing ∧ (s.beginQuantum cfg q seen).idx = 0)) := by
  have h := I.phase
  simp only [Phase, hp] at h
  have I1 : Inv cfg (s.enterQuantum q) 0 := by
    refine I.move rfl rfl rfl (Nat.le_refl _) ?_
    simp only [Phase, St.enterQuantum]
    refine ⟨q, qs, hq, rfl, fun f hf => Or.inl (h.2.2.2.1 f hf q (by simp [hq])), ?_, Nat.zero_le _⟩
    intro g hg
    cases hc : q.groups g with
    | nil => rfl
    | cons x xs =>
      have := (I.ent q (by simp [hq]) g x (by simp [hc])).1
      omega
  unfold St.beginQuantum
  simp only
  split
  · split
    · rename_i s2 hs
      obtain ⟨h1, h2, h3⟩ := I1.drainAsync rfl hs
      exact ⟨h1.congr rfl rfl rfl rfl rfl (Nat.le_refl _) (h1.phase.congr rfl rfl rfl rfl rfl rfl), Or.inr ⟨h2, h3⟩⟩
    · rename_i hs
      obtain ⟨h1, h2⟩ := I1.drainStuck rfl hs
      exact ⟨h1, Or.inl h2⟩
  · exact ⟨I1, Or.inr ⟨rfl, rfl⟩⟩

/-- the handler about to run is the next one in the order of the specification -/
theorem Inv.fireObs {cfg : Cfg} {s : St} {k : Nat} (I : Inv cfg s k) (hp : s.pc = .firing)
    {q : Quantum} {qs : List Quantum} (hq : s.queue = q :: qs) {rid : Nat} {ev : Ev} {c : Bool}
    (hx : At q s.grp k ⟨rid, some ev, c⟩) :
    Inv cfg { s with trace := s.trace ++ [.fire ⟨rid, ev, s.tick, s.grp, c⟩ s.tick] } (k + 1) ∧
      ⟨rid, ev, s.tick, s.grp, c⟩ ∈ pending s.trace := by
  have h := I.phase
  simp only [Phase, hp] at h
  obtain ⟨q1, qs1, e1, e2, e3, e4, e5⟩ := h
  rw [hq] at e1; cases e1
  have hqm : q ∈ s.queue := by simp [hq]
  have hfr : fires (s.trace ++ [.fire ⟨rid, ev, s.tick, s.grp, c⟩ s.tick]) =
      fires s.trace ++ [⟨rid, ev, s.tick, s.grp, c⟩] := by simp [fires_append, fires]
  have hpe : pending (s.trace ++ [.fire ⟨rid, ev, s.tick, s.grp, c⟩ s.tick]) =
      (pending s.trace).filter (fun x => x ≠ ⟨rid, ev, s.tick, s.grp, c⟩) := by
    rw [pending_snoc]; rfl
  have hin : InQ s k ⟨rid, ev, s.tick, s.grp, c⟩ := ⟨q, hqm, e2, k, hx, fun _ _ => Nat.le_refl _⟩
  have hpend : (⟨rid, ev, s.tick, s.grp, c⟩ : Req) ∈ pending s.trace := (I.agree _).2 hin
  have hkey : ∀ q' ∈ s.queue, ∀ g' i x, At q' g' i x → (q'.tick = s.tick → g' = s.grp → k + 1 ≤ i) →
      s.tick < q'.tick ∨ (s.tick = q'.tick ∧ (s.grp < g' ∨ (s.grp = g' ∧ rid < x.rid))) := by
    intro q' hq' g' i x hat hcond
    have hle := sorted_head_le (hq ▸ I.sorted) q' (hq ▸ hq')
    by_cases ht : q'.tick = s.tick
    · have hqq : q' = q := pairwise_tick_inj I.sorted hq' hqm (by omega)
      subst hqq
      right
      refine ⟨by omega, ?_⟩
      rcases Nat.lt_trichotomy g' s.grp with h1 | h1 | h1
      · have := hat.lt
        simp [e4 g' h1] at this
      · right
        have hi := hcond ht h1
        subst h1
        have hr := List.pairwise_iff_getElem.1 (I.rids q' hqm s.grp)
        obtain ⟨l1, g1⟩ := List.getElem?_eq_some_iff.1 hx
        obtain ⟨l2, g2⟩ := List.getElem?_eq_some_iff.1 hat
        have := hr k i l1 l2 (by omega)
        rw [g1, g2] at this
        exact ⟨rfl, this⟩
      · left; exact h1
    · left; omega
  have hagree : ∀ r, r ∈ pending (s.trace ++ [.fire ⟨rid, ev, s.tick, s.grp, c⟩ s.tick]) ↔ InQ s (k + 1) r := by
    intro r
    rw [hpe, List.mem_filter, I.agree r]
    simp only [decide_eq_true_eq]
    constructor
    · rintro ⟨⟨q', hq', f1, i, f2, f3⟩, hne⟩
      refine ⟨q', hq', f1, i, f2, ?_⟩
      intro h1 h2
      rcases Nat.eq_or_lt_of_le (f3 h1 h2) with h3 | h3
      · exfalso; apply hne
        have hqq : q' = q := pairwise_tick_inj I.sorted hq' hqm (by omega)
        subst hqq
        subst h3
        unfold At at f2 hx
        rw [h2, hx] at f2
        cases r
        simp only [Option.some.injEq, Entry.mk.injEq] at f2
        simp only [Req.mk.injEq]
        simp only at f1 h2
        exact ⟨f2.1.symm, f2.2.1.symm, by omega, h2, f2.2.2.symm⟩
      · exact h3
    · rintro ⟨q', hq', f1, i, f2, f3⟩
      refine ⟨⟨q', hq', f1, i, f2, fun h1 h2 => Nat.le_of_succ_le (f3 h1 h2)⟩, ?_⟩
      rintro rfl
      have := hkey q' hq' _ i _ f2 f3
      simp only at this f1
      omega
  refine ⟨?_, hpend⟩
  constructor
  · exact I.sorted
  · exact I.rids
  · exact I.ent
  · exact I.own
  · exact hagree
  · show ∀ f ∈ fires (_ ++ _), _
    rw [hfr]
    intro f hf
    rcases List.mem_append.1 hf with hf | hf
    · exact I.firedRid f hf
    · simp at hf; subst hf
      exact (I.ent q hqm _ _ hx.mem).2.2
  · show List.Pairwise _ (fires (_ ++ _))
    rw [hfr, List.pairwise_append]
    refine ⟨I.firesSorted, by simp, ?_⟩
    intro f hf r hr
    simp at hr; subst hr
    exact I.before f hf _ hpend
  · show ∀ f ∈ fires (_ ++ _), ∀ r ∈ pending (_ ++ _), _
    rw [hfr]
    intro f hf r hr
    rcases List.mem_append.1 hf with hf | hf
    · refine I.before f hf r ?_
      rw [hpe, List.mem_filter] at hr; exact hr.1
    · simp at hf; subst hf
      obtain ⟨q', hq', f1, i, f2, f3⟩ := (hagree r).1 hr
      have := hkey q' hq' _ i _ f2 f3
      rw [f1] at this
      exact this
  · show ∀ r ∈ pending (_ ++ _), _
    intro r hr
    rw [hpe, List.mem_filter] at hr
    exact I.contLe r hr.1
  · intro pre r t post h
    rcases snoc_split h with ⟨h1, h2, _⟩ | ⟨p, _, h2⟩
    · cases h2; subst h1; exact ⟨hpend, rfl⟩
    · exact I.valid pre r t p h2
  · intro pre r now rel' post h
    rcases snoc_split h with ⟨h1, h2, _⟩ | ⟨p, _, h2⟩
    · cases h2
    · exact I.accOk pre r now rel' p h2
  · simp only [Phase, hp]
    refine ⟨q, qs, hq, e2, ?_, e4, hx.lt⟩
    rw [hfr]
    intro f hf
    rcases List.mem_append.1 hf with hf | hf
    · exact e3 f hf
    · simp at hf; subst hf; exact Or.inr ⟨rfl, Nat.le_refl _⟩

theorem Inv.skipNone {cfg : Cfg} {s : St} {k : Nat} (I : Inv cfg s k) (hp : s.pc = .firing)
    {q : Quantum} {qs : List Quantum} (hq : s.queue = q :: qs) {rid : Nat} {c : Bool}
    (hx : At q s.grp k ⟨rid, none, c⟩) : Inv cfg s (k + 1) := by
  have h := I.phase
  simp only [Phase, hp] at h
  obtain ⟨q1, qs1, e1, e2, e3, e4, e5⟩ := h
  rw [hq] at e1; cases e1
  have hqm : q ∈ s.queue := by simp [hq]
  exact { I with
    agree := by
      intro r
      rw [I.agree r]
      constructor
      · rintro ⟨q', hq', f1, i, f2, f3⟩
        refine ⟨q', hq', f1, i, f2, ?_⟩
        intro h1 h2
        rcases Nat.eq_or_lt_of_le (f3 h1 h2) with h3 | h3
        · exfalso
          have hqq : q' = q := pairwise_tick_inj I.sorted hq' hqm (by omega)
          subst hqq
          subst h3
          unfold At at f2 hx
          rw [h2, hx] at f2
          simp at f2
        · exact h3
      · rintro ⟨q', hq', f1, i, f2, f3⟩
        exact ⟨q', hq', f1, i, f2, fun h1 h2 => Nat.le_of_succ_le (f3 h1 h2)⟩
    phase := by
      simp only [Phase, hp]
      exact ⟨q, qs, hq, e2, e3, e4, hx.lt⟩ }

theorem Inv.setIdx {cfg : Cfg} {s : St} {k : Nat} (I : Inv cfg s k) (i : Nat) : Inv cfg { s with idx := i } k :=
  I.congr rfl rfl rfl rfl rfl (Nat.le_refl _) (I.phase.congr rfl rfl rfl rfl rfl rfl)

theorem Inv.fireEntry {cfg : Cfg} {H : St → Nat → List Call} {s : St} {k : Nat} (I : Inv cfg s k) (hp : s.pc = .firing)
    {q : Quantum} {qs : List Quantum} (hq : s.queue = q :: qs) {x : Entry} (hx : At q s.grp k x) :
    Inv cfg (s.fireEntry cfg H x) (k + 1) ∧
      ((s.fireEntry cfg H x).pc = .firing ∨ (s.fireEntry cfg H x).pc = .aborted) := by
  obtain ⟨rid, ev, c⟩ := x
  unfold St.fireEntry
  cases ev with
  | none => exact ⟨I.skipNone hp hq hx, Or.inl hp⟩
  | some ev =>
    have h1 := (I.fireObs hp hq hx).1
    cases ev with
    | stop =>
      refine ⟨h1.congr rfl rfl rfl rfl rfl (Nat.le_refl _) ?_, Or.inl hp⟩
      have := h1.phase
      simp only [Phase, hp] at this ⊢
      exact this
    | user e => exact h1.execAll hp _

theorem Inv.endGroup {cfg : Cfg} {s : St} {k : Nat} (I : Inv cfg s k) (hp : s.pc = .firing)
    {q : Quantum} {qs : List Quantum} (hq : s.queue = q :: qs) (hx : (q.groups s.grp)[k]? = none) :
    Inv cfg { s with queue := { q with groups := upd q.groups s.grp [] } :: qs, grp := s.grp + 1, idx := 0 } 0 := by
  have h := I.phase
  simp only [Phase, hp] at h
  obtain ⟨q1, qs1, e1, e2, e3, e4, e5⟩ := h
  rw [hq] at e1; cases e1
  have hqm : q ∈ s.queue := by simp [hq]
  have hlen : (q.groups s.grp).length ≤ k := List.getElem?_eq_none_iff.1 hx
  have hs := I.sorted
  rw [hq] at hs
  have hqs : ∀ q' ∈ qs, q' ∈ s.queue ∧ q'.tick ≠ s.tick := by
    intro q' hq'
    refine ⟨by simp [hq, hq'], ?_⟩
    have := (List.pairwise_cons.1 hs).1 q' hq'
    omega
  constructor
  · show List.Pairwise _ (_ :: _)
    rw [List.pairwise_cons] at hs ⊢
    exact hs
  · intro q' hq' g
    rcases List.mem_cons.1 hq' with rfl | h
    · show List.Pairwise _ (upd _ _ _ _)
      by_cases hg : g = s.grp
      · subst hg; simp
      · rw [upd_other _ _ hg]; exact I.rids q hqm g
    · exact I.rids q' (hqs q' h).1 g
  · intro q' hq' g x hx
    rcases List.mem_cons.1 hq' with rfl | h
    · have hx' : x ∈ upd q.groups s.grp [] g := hx
      by_cases hg : g = s.grp
      · subst hg; simp at hx'
      · rw [upd_other _ _ hg] at hx'; exact I.ent q hqm g x hx'
    · exact I.ent q' (hqs q' h).1 g x hx
  · intro q' hq' g x hx
    rcases List.mem_cons.1 hq' with rfl | h
    · have hx' : x ∈ upd q.groups s.grp [] g := hx
      by_cases hg : g = s.grp
      · subst hg; simp at hx'
      · rw [upd_other _ _ hg] at hx'; exact I.own q hqm g x hx'
    · exact I.own q' (hqs q' h).1 g x hx
  · intro r
    rw [I.agree r, InQ_zero]
    constructor
    · rintro ⟨q', hq', f1, i, f2, f3⟩
      rw [hq] at hq'
      rcases List.mem_cons.1 hq' with rfl | h
      · refine ⟨_, List.mem_cons_self .., f1, i, ?_⟩
        show (upd _ _ _ _)[i]? = _
        by_cases hg : r.grp = s.grp
        · have := f3 e2 hg
          have := f2.lt
          rw [hg] at this; omega
        · rw [upd_other _ _ hg]; exact f2
      · exact ⟨q', List.mem_cons_of_mem _ h, f1, i, f2⟩
    · rintro ⟨q', hq', f1, i, f2⟩
      rcases List.mem_cons.1 hq' with rfl | h
      · have f2' : (upd q.groups s.grp [] r.grp)[i]? = some ⟨r.rid, some r.ev, r.cont⟩ := f2
        by_cases hg : r.grp = s.grp
        · rw [hg] at f2'; simp at f2'
        · rw [upd_other _ _ hg] at f2'
          exact ⟨q, hqm, f1, i, f2', fun _ h => absurd h hg⟩
      · exact ⟨q', (hqs q' h).1, f1, i, f2, fun h1 => absurd h1 (hqs q' h).2⟩
  · exact I.firedRid
  · exact I.firesSorted
  · exact I.before
  · exact I.contLe
  · exact I.valid
  · exact I.accOk
  · simp only [Phase, hp]
    refine ⟨_, _, rfl, e2, ?_, ?_, Nat.zero_le _⟩
    · intro f hf
      rcases e3 f hf with h | ⟨h1, h2⟩
      · exact Or.inl h
      · exact Or.inr ⟨h1, by omega⟩
    · intro g hg
      show upd _ _ _ _ = _
      by_cases h : g = s.grp
      · subst h; simp
      · rw [upd_other _ _ h]; exact e4 g (by omega)

theorem Inv.endQuantum {cfg : Cfg} {s : St} {k : Nat} (I : Inv cfg s k) (hp : s.pc = .firing)
    {q : Quantum} {qs : List Quantum} (hq : s.queue = q :: qs) (hn : cfg.nGroups ≤ s.grp) :
    Inv cfg (s.endQuantum q qs) 0 ∧ ((s.endQuantum q qs).pc = .idle ∨ (s.endQuantum q qs).pc = .loop) := by
  have h := I.phase
  simp only [Phase, hp] at h
  obtain ⟨q1, qs1, e1, e2, e3, e4, e5⟩ := h
  rw [hq] at e1; cases e1
  have hqm : q ∈ s.queue := by simp [hq]
  have hempty : ∀ g, q.groups g = [] := by
    intro g
    by_cases hg : g < s.grp
    · exact e4 g hg
    · cases hc : q.groups g with
      | nil => rfl
      | cons x xs =>
        have := (I.ent q hqm g x (by simp [hc])).2.1
        omega
  have hs := I.sorted
  rw [hq] at hs
  have hlt : ∀ q' ∈ qs, s.tick < q'.tick := by
    intro q' hq'
    have := (List.pairwise_cons.1 hs).1 q' hq'
    omega
  have hqs : ∀ q' ∈ qs, q' ∈ s.queue := by intro q' h; simp [hq, h]
  have hfle : ∀ f ∈ fires s.trace, f.due ≤ s.tick := by
    intro f hf; rcases e3 f hf with h | ⟨h, _⟩ <;> omega
  have I1 : Inv cfg { s with queue := qs, pc := .loop, running := true, free := s.free ++ [q.first] } 0 ∨ qs = [] := by
    by_cases hne : qs = []
    · exact Or.inr hne
    · left
      refine ⟨(List.pairwise_cons.1 hs).2, fun q' h => I.rids q' (hqs q' h), fun q' h => I.ent q' (hqs q' h),
        fun q' h => I.own q' (hqs q' h), ?_, I.firedRid, I.firesSorted, I.before, I.contLe, I.valid, I.accOk, ?_⟩
      · intro r
        rw [I.agree r, InQ_zero]
        constructor
        · rintro ⟨q', hq', f1, i, f2, f3⟩
          rw [hq] at hq'
          rcases List.mem_cons.1 hq' with rfl | h
          · have := f2.lt; simp [hempty] at this
          · exact ⟨q', h, f1, i, f2⟩
        · rintro ⟨q', hq', f1, i, f2⟩
          refine ⟨q', hqs q' hq', f1, i, f2, ?_⟩
          intro h; have := hlt q' hq'; omega
      · simp only [Phase]
        refine ⟨trivial, fun q' h => Nat.le_of_lt (hlt q' h), hfle, ?_, fun _ => hlt, fun _ => hne⟩
        intro f hf q' hq'
        have := hfle f hf; have := hlt q' hq'; omega
  have I2 : ∀ s2 : St, s2.queue = qs → s2.tick = s.tick → s2.trace = s.trace → s2.rid = s.rid →
      s2.latest = s.latest → Inv cfg s2.finish 0 := by
    intro s2 a1 a2 a3 a4 a5
    rcases I1 with I1 | hnil
    · refine I1.move (s' := s2.finish) a1 a4 a3 (Nat.le_of_eq a5.symm) ?_
      simp only [Phase, St.finish, a1, a2, a3]
      exact ⟨trivial, fun q' h => hlt q' h, fun f hf => Nat.lt_succ_of_le (hfle f hf)⟩
    · have hpz : ∀ r, r ∉ pending s.trace := by
        intro r hr
        obtain ⟨q', hq', f1, i, f2, f3⟩ := (I.agree r).1 hr
        rw [hq, hnil] at hq'
        simp at hq'; subst hq'
        have := f2.lt; simp [hempty] at this
      have hz : s2.finish.queue = [] := a1.trans hnil
      have ht : s2.finish.trace = s.trace := a3
      refine ⟨by simp [hz], by simp [hz], by simp [hz], by simp [hz], ?_, ?_, ht ▸ I.firesSorted, ht ▸ I.before,
        ?_, ht ▸ I.valid, ?_, ?_⟩
      · intro r; rw [ht]; simp [InQ, hz, hpz]
      · rw [ht]; show ∀ f ∈ _, Req.rid f < s2.rid; rw [a4]; exact I.firedRid
      · rw [ht]; intro r hr; exact absurd hr (hpz r)
      · rw [ht]; show ∀ pre r now rel post, _ → _ ∧ _ ∧ _ ∧ Req.rid r < s2.rid; rw [a4]; exact I.accOk
      · simp only [Phase, St.finish, a1, a2, a3]
        exact ⟨trivial, fun q' h => hlt q' h, fun f hf => Nat.lt_succ_of_le (hfle f hf)⟩
  unfold St.endQuantum
  cases hqs' : qs with
  | nil => exact ⟨I2 _ hqs'.symm rfl rfl rfl rfl, Or.inl rfl⟩
  | cons q' qs' =>
    simp only
    split
    · exact ⟨I2 _ hqs'.symm rfl rfl rfl rfl, Or.inl rfl⟩
    · refine ⟨?_, Or.inr rfl⟩
      rcases I1 with I1 | hnil
      · rw [hqs'] at I1
        refine I1.move rfl rfl rfl (Nat.le_refl _) ?_
        have := I1.phase
        simp only [Phase] at this ⊢
        exact ⟨this.1, this.2.1, this.2.2.1, this.2.2.2.1, fun _ => hqs' ▸ hlt, fun _ => by simp⟩
      · rw [hqs'] at hnil; cases hnil

theorem Inv.micro {cfg : Cfg} {H : St → Nat → List Call} {s : St} {k : Nat} (I : Inv cfg s k)
    (hk : s.pc = .firing → k = s.idx) (seen : Bool) :
    ∃ k', Inv cfg (s.micro cfg H seen) k' ∧ ((s.micro cfg H seen).pc = .firing → k' = (s.micro cfg H seen).idx) := by
  have h := I.phase
  cases hp : s.pc with
  | idle => refine ⟨k, ?_, ?_⟩ <;> simp [St.micro, hp]; exact I
  | aborted => refine ⟨k, ?_, ?_⟩ <;> simp [St.micro, hp]; exact I
  | loop =>
    simp only [Phase, hp] at h
    obtain rfl := h.1
    simp only [St.micro, hp]
    split
    · rename_i hr
      cases hq : s.queue with
      | nil => exact absurd hq (h.2.2.2.2.2 hr)
      | cons q qs =>
        obtain ⟨h1, h2⟩ := I.beginQuantum hp hq seen
        refine ⟨0, h1, fun hf => ?_⟩
        rcases h2 with h2 | h2
        · rw [h2] at hf; cases hf
        · exact h2.2.symm
    · rename_i hr
      exact ⟨0, I.finish (h.2.2.2.2.1 (by simpa using hr)) h.2.2.1, fun hf => by simp [St.finish] at hf⟩
  | firing =>
    obtain rfl := hk hp
    simp only [Phase, hp] at h
    obtain ⟨q, qs, hq, _⟩ := h
    simp only [St.micro, hp, hq]
    split
    · split
      · rename_i x hx
        obtain ⟨h1, h2⟩ := I.fireEntry (H := H) hp hq hx
        exact ⟨s.idx + 1, h1.setIdx _, fun _ => rfl⟩
      · rename_i hx
        exact ⟨0, by have h1 := I.endGroup hp hq hx; simpa only [hp] using h1, fun _ => rfl⟩
    · rename_i hn
      obtain ⟨h1, h2⟩ := I.endQuantum hp hq (by omega)
      refine ⟨0, h1, fun hf => ?_⟩
      rcases h2 with h2 | h2 <;> rw [h2] at hf <;> cases hf

theorem Inv.idle_zero {cfg : Cfg} {s : St} {k : Nat} (I : Inv cfg s k) (hp : s.pc = .idle) : k = 0 := by
  have h := I.phase
  simp only [Phase, hp] at h
  exact h.1

theorem startRun_not_firing {cfg : Cfg} {s : St} {n : Option Nat} {ex : Bool} (hp : s.pc = .idle) :
    (s.startRun cfg n ex).pc ≠ .firing := by
  unfold St.startRun
  split
  · simp [hp]
  · cases n with
    | none => simp
    | some n =>
      simp only
      split
      · split <;> simp [hp]
      · simp

/-- every reachable state satisfies the invariant -/
theorem Reach.inv {cfg : Cfg} {H : St → Nat → List Call} {s : St} (h : Reach cfg H s) :
    ∃ k, Inv cfg s k ∧ (s.pc = .firing → k = s.idx) := by
  induction h with
  | init => exact ⟨0, Inv.init cfg, fun _ => rfl⟩
  | call c _ hp ih =>
    obtain ⟨k, I, _⟩ := ih
    obtain ⟨h1, h2⟩ := I.exec (Or.inl hp) c
    exact ⟨k, h1, fun hf => by rw [h2, hp] at hf; cases hf⟩
  | run n ex _ hp ih =>
    obtain ⟨k, I, _⟩ := ih
    obtain rfl := I.idle_zero hp
    exact ⟨0, I.startRun hp n ex, fun hf => absurd hf (startRun_not_firing hp)⟩
  | @restart s t _ hp ih => 
    refine ⟨0, Inv.restartAt cfg _ t hp, fun hf => ?_⟩
    have : s.pc = .firing := hf
    rw [hp] at this; cases this
  | @clear s _ hp ih =>
    obtain ⟨k, I, _⟩ := ih
    refine ⟨k, I.clearEvents hp, fun hf => ?_⟩
    have : s.pc = .firing := hf
    rw [hp] at this; cases this
  | recover t _ hp ih => exact ⟨0, Inv.recover cfg _ t, fun hf => by cases hf⟩
  | async a _ ih =>
    obtain ⟨k, I, h⟩ := ih
    exact ⟨k, I.congr rfl rfl rfl rfl rfl (Nat.le_refl _) (I.phase.congr rfl rfl rfl rfl rfl rfl), h⟩
  | micro seen _ ih =>
    obtain ⟨k, I, h⟩ := ih
    exact I.micro h seen

end Sparta.Scheduler
