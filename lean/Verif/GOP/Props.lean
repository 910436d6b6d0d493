import Verif.GOP.Model
import Verif.DAG.Props
/-!
C249: ordering points of one name order the events of all blocks that use it.
-/
namespace Sparta.GOP
open Sparta.DAG (declared graph edgesStep addEdge Before Cyclic)

/-- what users name: events and points -/
inductive Node where
  | ev (i : Nat)
  | gop (n : String)
deriving DecidableEq

/-- the point of a phase -/
def ph : Nat → Node
  | 0 => .gop "Trigger"
  | 1 => .gop "Update"
  | 2 => .gop "PortUpdate"
  | 3 => .gop "Flush"
  | 4 => .gop "Collection"
  | 5 => .gop "Tick"
  | _ => .gop "PostTick"

/-- what was said: the number of events, and what is to come before what -/
structure Said where
  n : Nat
  E : List (Node × Node)

/-- the order of the phases is said from the start -/
def Said.init : Said := ⟨0, [(ph 0, ph 1), (ph 1, ph 2), (ph 2, ph 3), (ph 3, ph 4), (ph 4, ph 5), (ph 5, ph 6)]⟩

/-- what a call says -/
def Said.step (l : Said) : Op → Said
  | .event p => if p < 7 then ⟨l.n + 1, l.E ++ ((if p = 0 then [] else [(ph (p - 1), .ev l.n)]) ++ [(.ev l.n, ph p)])⟩ else l
  | .order i j => if i < l.n ∧ j < l.n ∧ i ≠ j then ⟨l.n, l.E ++ [(.ev i, .ev j)]⟩ else l
  | .before i n => if i < l.n then ⟨l.n, l.E ++ [(.ev i, .gop n)]⟩ else l
  | .after n j => if j < l.n then ⟨l.n, l.E ++ [(.gop n, .ev j)]⟩ else l

/-- what a history says -/
def said (os : List Op) : Said := os.foldl Said.step Said.init

/-- `x` is to come before `y`, directly or through others -/
def First (l : Said) : Node → Node → Prop := Relation.TransGen fun x y => (x, y) ∈ l.E

/-- the vertex of a node -/
def vtx (s : S) : Node → Option Nat
  | .ev i => s.evs[i]?
  | .gop n => find s.gops n

structure R (s : S) (l : Said) (tr : List DAG.Op) : Prop where
  g : s.g = graph tr
  len : s.evs.length = l.n
  inj : ∀ x y a, vtx s x = some a → vtx s y = some a → x = y
  bound : ∀ x a, vtx s x = some a → a < s.next
  phs : ∀ p, p < 7 → vtx s (ph p) = some p
  defd : ∀ x y, (x, y) ∈ l.E → ∃ a b, vtx s x = some a ∧ vtx s y = some b
  decl : ∀ a b, (a, b) ∈ declared tr ↔ ∃ x y, (x, y) ∈ l.E ∧ vtx s x = some a ∧ vtx s y = some b

theorem graph_snoc (tr : List DAG.Op) (o : DAG.Op) : graph (tr ++ [o]) = ((graph tr).step o).1 := by
  unfold graph
  rw [runOps_append]
  rfl

theorem declared_snoc (tr : List DAG.Op) (o : DAG.Op) : declared (tr ++ [o]) = edgesStep (declared tr) o := by
  unfold declared
  rw [List.foldl_append]
  rfl

theorem mem_addEdge {E : List (Nat × Nat)} {v w a b : Nat} (h : v ≠ w) : (a, b) ∈ addEdge E v w ↔ (a, b) ∈ E ∨ (a = v ∧ b = w) := by
  unfold addEdge
  by_cases g : v = w ∨ (v, w) ∈ E
  · rw [if_pos g]
    refine ⟨Or.inl, ?_⟩
    rintro (k | ⟨rfl, rfl⟩)
    · exact k
    · exact g.resolve_left h
  · rw [if_neg g]
    simp

/-- a vertex nobody had is given to a node that had none -/
theorem R.fresh {s s' : S} {l l' : Said} {tr : List DAG.Op} (r : R s l tr) (z : Node) (hz : vtx s z = none)
    (hg : s'.g = s.g) (hlen : s'.evs.length = l'.n) (hE : l'.E = l.E) (hnext : s'.next = s.next + 1)
    (hv : ∀ x, vtx s' x = if x = z then some s.next else vtx s x) : R s' l' tr := by
  have old : ∀ x a, vtx s x = some a → vtx s' x = some a := by
    intro x a h
    rw [hv, if_neg, h]
    rintro rfl
    rw [hz] at h
    cases h
  refine ⟨hg.trans r.g, hlen, ?_, ?_, fun p hp => old _ _ (r.phs p hp), ?_, ?_⟩
  · intro x y a h1 h2
    rw [hv] at h1 h2
    split at h1 <;> split at h2
    · next e1 e2 => rw [e1, e2]
    · cases h1
      exact absurd (r.bound _ _ h2) (by omega)
    · cases h2
      exact absurd (r.bound _ _ h1) (by omega)
    · exact r.inj _ _ _ h1 h2
  · intro x a h
    rw [hv] at h
    rw [hnext]
    split at h
    · cases h; omega
    · have := r.bound _ _ h; omega
  · intro x y h
    rw [hE] at h
    obtain ⟨a, b, h1, h2⟩ := r.defd x y h
    exact ⟨a, b, old _ _ h1, old _ _ h2⟩
  · intro a b
    rw [r.decl, hE]
    constructor
    · rintro ⟨x, y, h, h1, h2⟩
      exact ⟨x, y, h, old _ _ h1, old _ _ h2⟩
    · rintro ⟨x, y, h, h1, h2⟩
      obtain ⟨a', b', k1, k2⟩ := r.defd x y h
      rw [old _ _ k1] at h1
      rw [old _ _ k2] at h2
      exact ⟨x, y, h, k1.trans h1, k2.trans h2⟩

/-- more is said about nodes that have vertices -/
theorem R.ext {s s' : S} {l : Said} {tr : List DAG.Op} (r : R s l tr) (o : DAG.Op) (new : List (Node × Node))
    (hg : s'.g = (s.g.step o).1) (hv : ∀ x, vtx s' x = vtx s x) (hlen : s'.evs.length = l.n) (hnext : s'.next = s.next)
    (hd : ∀ x y, (x, y) ∈ new → ∃ a b, vtx s x = some a ∧ vtx s y = some b)
    (he : ∀ a b, (a, b) ∈ edgesStep (declared tr) o ↔ (a, b) ∈ declared tr ∨ ∃ x y, (x, y) ∈ new ∧ vtx s x = some a ∧ vtx s y = some b) :
    R s' ⟨l.n, l.E ++ new⟩ (tr ++ [o]) := by
  refine ⟨?_, hlen, ?_, ?_, ?_, ?_, ?_⟩
  · rw [hg, r.g, graph_snoc]
  · intro x y a; rw [hv, hv]; exact r.inj x y a
  · intro x a; rw [hv, hnext]; exact r.bound x a
  · intro p hp; rw [hv]; exact r.phs p hp
  · intro x y h
    rw [hv, hv]
    rcases List.mem_append.1 h with h | h
    · exact r.defd x y h
    · exact hd x y h
  · intro a b
    rw [declared_snoc, he, r.decl]
    constructor
    · rintro (⟨x, y, h, h1, h2⟩ | ⟨x, y, h, h1, h2⟩)
      · exact ⟨x, y, List.mem_append_left _ h, by rw [hv]; exact h1, by rw [hv]; exact h2⟩
      · exact ⟨x, y, List.mem_append_right _ h, by rw [hv]; exact h1, by rw [hv]; exact h2⟩
    · rintro ⟨x, y, h, h1, h2⟩
      rw [hv] at h1 h2
      rcases List.mem_append.1 h with h | h
      · exact Or.inl ⟨x, y, h, h1, h2⟩
      · exact Or.inr ⟨x, y, h, h1, h2⟩

theorem R.link {s : S} {l : Said} {tr : List DAG.Op} (r : R s l tr) {x y : Node} {v w : Nat} (hx : vtx s x = some v) (hy : vtx s y = some w)
    (hne : x ≠ y) : R (s.link v w) ⟨l.n, l.E ++ [(x, y)]⟩ (tr ++ [.link v w]) := by
  have hvw : v ≠ w := by
    rintro rfl
    exact hne (r.inj _ _ _ hx hy)
  refine r.ext (s' := s.link v w) (.link v w) [(x, y)] rfl ?_ r.len rfl ?_ ?_
  · intro z; cases z <;> rfl
  · intro x' y' h
    simp only [List.mem_singleton, Prod.mk.injEq] at h
    obtain ⟨rfl, rfl⟩ := h
    exact ⟨v, w, hx, hy⟩
  · intro a b
    show (a, b) ∈ addEdge _ v w ↔ _
    rw [mem_addEdge hvw]
    constructor
    · rintro (h | ⟨rfl, rfl⟩)
      · exact Or.inl h
      · exact Or.inr ⟨x, y, by simp, hx, hy⟩
    · rintro (h | ⟨x', y', h, h1, h2⟩)
      · exact Or.inl h
      · simp only [List.mem_singleton, Prod.mk.injEq] at h
        obtain ⟨rfl, rfl⟩ := h
        rw [hx] at h1
        rw [hy] at h2
        cases h1
        cases h2
        exact Or.inr ⟨rfl, rfl⟩

/-- saying that something comes before itself is void -/
theorem R.linkSelf {s : S} {l : Said} {tr : List DAG.Op} (r : R s l tr) (v : Nat) : R (s.link v v) l (tr ++ [.link v v]) := by
  have h := r.ext (s' := s.link v v) (.link v v) [] rfl (by intro z; cases z <;> rfl) r.len rfl (by intro x y h; cases h) (by
    intro a b
    show (a, b) ∈ addEdge _ v v ↔ _
    unfold addEdge
    rw [if_pos (Or.inl rfl)]
    simp)
  rw [List.append_nil] at h
  exact h

/-- a point of a name exists after it is asked for, and nothing else changes -/
theorem R.point {s : S} {l : Said} {tr : List DAG.Op} (r : R s l tr) (n : String) :
    R (s.point n).1 l tr ∧ vtx (s.point n).1 (.gop n) = some (s.point n).2 ∧ (s.point n).1.evs = s.evs := by
  unfold S.point
  cases h : find s.gops n with
  | some v => exact ⟨r, h, rfl⟩
  | none =>
    refine ⟨r.fresh (.gop n) h rfl r.len rfl rfl ?_, ?_, rfl⟩
    · intro x
      cases x with
      | ev i => rw [if_neg (by intro e; cases e)]; rfl
      | gop m =>
        show (if n = m then some s.next else find s.gops m) = _
        by_cases e : n = m
        · rw [if_pos e, if_pos (by rw [e])]
        · rw [if_neg e, if_neg (by intro k; cases k; exact e rfl)]
          rfl
    · show (if n = n then some s.next else find s.gops n) = _
      rw [if_pos rfl]

theorem R.event {s : S} {l : Said} {tr : List DAG.Op} (r : R s l tr) {p : Nat} (hp : p < 7) :
    ∃ tr', R (s.step (.event p)).1 (l.step (.event p)) tr' := by
  have hz : vtx s (.ev l.n) = none := by
    show s.evs[l.n]? = none
    rw [List.getElem?_eq_none (by rw [r.len]; omega)]
  have r1 : R { s with evs := s.evs ++ [s.next], next := s.next + 1 } ⟨l.n + 1, l.E⟩ tr := by
    refine r.fresh (.ev l.n) hz rfl (by simp [r.len]) rfl rfl ?_
    intro x
    cases x with
    | gop m => rw [if_neg (by intro e; cases e)]; rfl
    | ev i =>
      show (s.evs ++ [s.next])[i]? = _
      by_cases e : i = l.n
      · rw [if_pos (by rw [e]), e, ← r.len]; simp
      · rw [if_neg (by intro k; cases k; exact e rfl)]
        show _ = s.evs[i]?
        by_cases g : i < s.evs.length
        · rw [List.getElem?_append_left g]
        · rw [List.getElem?_eq_none (by have := r.len; simp; omega), List.getElem?_eq_none (by omega)]
  have hev : vtx { s with evs := s.evs ++ [s.next], next := s.next + 1 } (.ev l.n) = some s.next := by
    show (s.evs ++ [s.next])[l.n]? = _
    rw [← r.len]; simp
  have hlt : 7 ≤ s.next := by have := r.bound _ _ (r.phs 6 (by omega)); omega
  refine ⟨tr ++ [.phase p s.next], ?_⟩
  unfold S.step Said.step
  dsimp only
  rw [if_pos hp, if_pos hp]
  refine r1.ext (s' := { s with g := (s.g.step (.phase p s.next)).1, evs := s.evs ++ [s.next], next := s.next + 1 }) (.phase p s.next) _ rfl ?_ r1.len rfl ?_ ?_
  · intro z; cases z <;> rfl
  · intro x y h
    by_cases e : p = 0
    · rw [if_pos e] at h
      simp only [List.nil_append, List.mem_singleton, Prod.mk.injEq] at h
      obtain ⟨rfl, rfl⟩ := h
      exact ⟨_, _, hev, r1.phs p hp⟩
    · rw [if_neg e] at h
      simp only [List.cons_append, List.nil_append, List.mem_cons, List.not_mem_nil, or_false, Prod.mk.injEq] at h
      rcases h with ⟨rfl, rfl⟩ | ⟨rfl, rfl⟩
      · exact ⟨_, _, r1.phs (p - 1) (by omega), hev⟩
      · exact ⟨_, _, hev, r1.phs p hp⟩
  · intro a b
    unfold edgesStep
    dsimp only
    by_cases e : p = 0
    · subst e
      rw [if_pos rfl, if_pos rfl, mem_addEdge (by omega)]
      refine or_congr Iff.rfl ⟨?_, ?_⟩
      · rintro ⟨rfl, rfl⟩
        exact ⟨_, _, by simp, hev, r1.phs 0 hp⟩
      · rintro ⟨x, y, h, h1, h2⟩
        simp only [List.nil_append, List.mem_singleton, Prod.mk.injEq] at h
        obtain ⟨rfl, rfl⟩ := h
        rw [hev] at h1
        rw [r1.phs 0 hp] at h2
        cases h1
        cases h2
        exact ⟨rfl, rfl⟩
    · rw [if_neg e, if_neg e, mem_addEdge (by omega), mem_addEdge (by omega), or_assoc]
      refine or_congr Iff.rfl ⟨?_, ?_⟩
      · rintro (⟨rfl, rfl⟩ | ⟨rfl, rfl⟩)
        · exact ⟨ph (p - 1), .ev l.n, by simp, r1.phs (p - 1) (by omega), hev⟩
        · exact ⟨.ev l.n, ph _, by simp, hev, r1.phs _ hp⟩
      · rintro ⟨x, y, h, h1, h2⟩
        simp only [List.cons_append, List.nil_append, List.mem_cons, List.not_mem_nil, or_false, Prod.mk.injEq] at h
        rcases h with ⟨rfl, rfl⟩ | ⟨rfl, rfl⟩
        · rw [hev] at h2
          rw [r1.phs (p - 1) (by omega)] at h1
          cases h1
          cases h2
          exact Or.inl ⟨rfl, rfl⟩
        · rw [hev] at h1
          rw [r1.phs p hp] at h2
          cases h1
          cases h2
          exact Or.inr ⟨rfl, rfl⟩

theorem R.step {s : S} {l : Said} {tr : List DAG.Op} (r : R s l tr) (o : Op) :
    ∃ tr', R (s.step o).1 (l.step o) tr' := by
  have key : ∀ i : Nat, (∃ v, s.evs[i]? = some v ∧ i < l.n) ∨ (s.evs[i]? = none ∧ ¬ i < l.n) := by
    intro i
    by_cases h : i < s.evs.length
    · exact Or.inl ⟨_, List.getElem?_eq_getElem h, r.len ▸ h⟩
    · exact Or.inr ⟨List.getElem?_eq_none (by omega), r.len ▸ h⟩
  cases o with
  | event p =>
    by_cases hp : p < 7
    · exact r.event hp
    · refine ⟨tr, ?_⟩
      unfold S.step Said.step
      dsimp only
      rw [if_neg hp, if_neg hp]
      exact r
  | order i j =>
    unfold S.step Said.step
    dsimp only
    rcases key i with ⟨v, hv, hi⟩ | ⟨hv, hi⟩
    · rcases key j with ⟨w, hw, hj⟩ | ⟨hw, hj⟩
      · rw [hv, hw]
        by_cases e : i = j
        · subst e
          rw [hv] at hw
          cases hw
          rw [if_neg (fun k => k.2.2 rfl)]
          exact ⟨_, r.linkSelf v⟩
        · rw [if_pos ⟨hi, hj, e⟩]
          exact ⟨_, r.link (x := .ev i) (y := .ev j) hv hw (by intro k; cases k; exact e rfl)⟩
      · rw [hv, hw, if_neg (fun k => hj k.2.1)]
        exact ⟨tr, r⟩
    · rw [hv, if_neg (fun k => hi k.1)]
      exact ⟨tr, r⟩
  | before i n =>
    unfold S.step Said.step
    dsimp only
    rcases key i with ⟨v, hv, hi⟩ | ⟨hv, hi⟩
    · obtain ⟨r1, h1, h2⟩ := r.point n
      rw [hv, if_pos hi]
      exact ⟨_, r1.link (x := .ev i) (y := .gop n) (by show _ = _; unfold vtx; rw [h2]; exact hv) h1 (by intro e; cases e)⟩
    · rw [hv, if_neg hi]
      exact ⟨tr, r⟩
  | after n i =>
    unfold S.step Said.step
    dsimp only
    rcases key i with ⟨v, hv, hi⟩ | ⟨hv, hi⟩
    · obtain ⟨r1, h1, h2⟩ := r.point n
      rw [hv, if_pos hi]
      exact ⟨_, r1.link (x := .gop n) (y := .ev i) h1 (by show _ = _; unfold vtx; rw [h2]; exact hv) (by intro e; cases e)⟩
    · rw [hv, if_neg hi]
      exact ⟨tr, r⟩

theorem find_mem : ∀ {l : List (String × Nat)} {n : String} {a : Nat}, find l n = some a → (n, a) ∈ l
  | (k, v) :: l, n, a, h => by
    unfold find at h
    split at h
    · next e => cases h; rw [e]; exact List.mem_cons_self
    · exact List.mem_cons_of_mem _ (find_mem h)

theorem R.init : R S.init Said.init [] := by
  have hp : ∀ p, p < 7 → vtx S.init (ph p) = some p := by decide
  have hinj : ∀ x ∈ S.init.gops, ∀ y ∈ S.init.gops, x.2 = y.2 → x = y := by decide
  have hb : ∀ x ∈ S.init.gops, x.2 < S.init.next := by decide
  have hE : Said.init.E = DAG.phaseChain.map fun e => (ph e.1, ph e.2) := rfl
  have hlt : ∀ e ∈ DAG.phaseChain, e.1 < 7 ∧ e.2 < 7 := by decide
  refine ⟨rfl, rfl, ?_, ?_, hp, ?_, ?_⟩
  · intro x y a h1 h2
    cases x with
    | ev i => cases h1
    | gop n =>
      cases y with
      | ev i => cases h2
      | gop m =>
        have := hinj _ (find_mem h1) _ (find_mem h2) rfl
        cases this
        rfl
  · intro x a h
    cases x with
    | ev i => cases h
    | gop n => exact hb _ (find_mem h)
  · intro x y h
    rw [hE] at h
    obtain ⟨e, he, k⟩ := List.mem_map.1 h
    cases k
    exact ⟨_, _, hp _ (hlt e he).1, hp _ (hlt e he).2⟩
  · intro a b
    show (a, b) ∈ DAG.phaseChain ↔ _
    rw [hE]
    constructor
    · intro h
      exact ⟨ph a, ph b, List.mem_map.2 ⟨(a, b), h, rfl⟩, hp _ (hlt _ h).1, hp _ (hlt _ h).2⟩
    · rintro ⟨x, y, h, h1, h2⟩
      obtain ⟨e, he, k⟩ := List.mem_map.1 h
      cases k
      rw [hp _ (hlt e he).1] at h1
      rw [hp _ (hlt e he).2] at h2
      cases h1
      cases h2
      exact he

theorem R.all (os : List Op) : ∃ tr, R (S.run os) (said os) tr := by
  have key : ∀ (os : List Op) (s : S) (l : Said) (tr : List DAG.Op), R s l tr → ∃ tr', R (runOps S.step s os).1 (os.foldl Said.step l) tr' := by
    intro os
    induction os with
    | nil => intro s l tr r; exact ⟨tr, r⟩
    | cons o os ih =>
      intro s l tr r
      obtain ⟨tr', r'⟩ := r.step o
      exact ih _ _ _ r'
  exact key os _ _ _ R.init

theorem R.forth {s : S} {l : Said} {tr : List DAG.Op} (r : R s l tr) {x y : Node} (h : First l x y) :
    ∃ a b, vtx s x = some a ∧ vtx s y = some b ∧ Before (declared tr) a b := by
  induction h with
  | single e =>
    obtain ⟨a, b, h1, h2⟩ := r.defd _ _ e
    exact ⟨a, b, h1, h2, .single ((r.decl a b).2 ⟨_, _, e, h1, h2⟩)⟩
  | tail _ e ih =>
    obtain ⟨a, b, h1, h2, h3⟩ := ih
    obtain ⟨b', c, k1, k2⟩ := r.defd _ _ e
    exact ⟨a, c, h1, k2, .tail h3 ((r.decl b c).2 ⟨_, _, e, h2, k2⟩)⟩

theorem R.back {s : S} {l : Said} {tr : List DAG.Op} (r : R s l tr) {a b : Nat} (h : Before (declared tr) a b) :
    ∃ x y, vtx s x = some a ∧ vtx s y = some b ∧ First l x y := by
  induction h with
  | single e =>
    obtain ⟨x, y, h, h1, h2⟩ := (r.decl _ _).1 e
    exact ⟨x, y, h1, h2, .single h⟩
  | tail _ e ih =>
    obtain ⟨x, y, h1, h2, h3⟩ := ih
    obtain ⟨y', z, h, k1, k2⟩ := (r.decl _ _).1 e
    cases r.inj _ _ _ h2 k1
    exact ⟨x, z, h1, k2, .tail h3 h⟩

theorem R.cyclic {s : S} {l : Said} {tr : List DAG.Op} (r : R s l tr) : Cyclic (declared tr) ↔ ∃ x, First l x x := by
  constructor
  · rintro ⟨a, h⟩
    obtain ⟨x, y, h1, h2, h3⟩ := r.back h
    cases r.inj _ _ _ h1 h2
    exact ⟨x, h3⟩
  · rintro ⟨x, h⟩
    obtain ⟨a, b, h1, h2, h3⟩ := r.forth h
    rw [h1] at h2
    cases h2
    exact ⟨a, h3⟩

/-- **C249** Whatever was said can be satisfied exactly if nothing is to come before itself, points being the same exactly if their names are. -/
theorem C249_sorts (os : List Op) : (S.run os).sorts = true ↔ ¬ ∃ x, First (said os) x x := by
  obtain ⟨tr, r⟩ := R.all os
  rw [← r.cyclic, ← (DAG.C09_sort_fails_iff_cyclic tr).1]
  unfold S.sorts
  rw [r.g]
  constructor
  · intro h
    split at h
    · next g' e => exact ⟨g', e⟩
    · cases h
  · rintro ⟨g', e⟩
    rw [e]

/-- **C249** If one event is to come before another, directly or through points and other events, it is in an earlier group. -/
theorem C249_order (os : List Op) (hs : (S.run os).sorts = true) (i j : Nat) (h : First (said os) (.ev i) (.ev j)) :
    ∃ a b, (S.run os).group i = some a ∧ (S.run os).group j = some b ∧ a < b := by
  obtain ⟨tr, r⟩ := R.all os
  obtain ⟨v, w, h1, h2, h3⟩ := r.forth h
  have h1' : (S.run os).evs[i]? = some v := h1
  have h2' : (S.run os).evs[j]? = some w := h2
  unfold S.sorts at hs
  unfold S.group
  rw [h1', h2']
  split at hs
  · next g' e =>
    rw [e]
    exact ⟨_, _, rfl, rfl, (DAG.C08_groups_respect_precedence tr g' (r.g ▸ e)).1 v w h3⟩
  · cases hs

theorem said_mono (os : List Op) : ∀ (l : Said) (e : Node × Node), e ∈ l.E → e ∈ (os.foldl Said.step l).E := by
  induction os with
  | nil => intro l e h; exact h
  | cons o os ih =>
    intro l e h
    apply ih
    cases o <;> unfold Said.step <;> dsimp only <;> split <;> first | exact h | exact List.mem_append_left _ h

theorem said_before {l : Said} {i : Nat} (n : String) (h : i < l.n) : (.ev i, .gop n) ∈ (l.step (.before i n)).E := by
  unfold Said.step
  dsimp only
  rw [if_pos h]
  simp

theorem said_after {l : Said} {j : Nat} (n : String) (h : j < l.n) : (.gop n, .ev j) ∈ (l.step (.after n j)).E := by
  unfold Said.step
  dsimp only
  rw [if_pos h]
  simp

/-- **C249** The use the class is for: once one block has said that its event comes before a point, and another (earlier or later, with anything
in between) that its event comes after the point of that name, the first event is in an earlier group. -/
theorem C249_point (os a b a' b' : List Op) (i j : Nat) (n : String) (h1 : os = a ++ .before i n :: b) (h2 : os = a' ++ .after n j :: b')
    (hi : i < (said a).n) (hj : j < (said a').n) (hs : (S.run os).sorts = true) :
    ∃ x y, (S.run os).group i = some x ∧ (S.run os).group j = some y ∧ x < y := by
  apply C249_order os hs
  refine .tail (.single (b := .gop n) ?_) ?_
  · rw [h1]
    unfold said
    rw [List.foldl_append, List.foldl_cons]
    exact said_mono _ _ _ (said_before n hi)
  · rw [h2]
    unfold said
    rw [List.foldl_append, List.foldl_cons]
    exact said_mono _ _ _ (said_after n hj)

/-- two blocks with an event each, in the phase Tick; the later event is made first -/
def twoBlocks (n : String) : List Op := [.event 5, .after n 0, .event 5, .before 1 n]

example : (S.run (twoBlocks "lsu_midmachine_order")).sorts = true ∧ (S.run (twoBlocks "lsu_midmachine_order")).group 1 = some 6 ∧
    (S.run (twoBlocks "lsu_midmachine_order")).group 0 = some 8 := by decide +kernel

/-- points of different names do not order anything -/
example : (S.run [.event 5, .after "a" 0, .event 5, .before 1 "b"]).group 0 = (S.run [.event 5, .after "a" 0, .event 5, .before 1 "b"]).group 1 := by
  decide +kernel

/-- **C249** The points of the phases are found by their names: a point called "Update" cannot order two events of the phase Tick, and one called
"Tick" cannot order two events of that phase either. -/
theorem C249_phase_name_violated : (S.run (twoBlocks "Update")).sorts = false ∧ (S.run (twoBlocks "Tick")).sorts = false := by decide +kernel

end Sparta.GOP
