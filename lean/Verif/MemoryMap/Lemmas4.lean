import Verif.MemoryMap.Lemmas3

/-!
The order of the keys, and the three phases of `addMapping` on the tree.
-/

namespace Sparta.MemoryMap

/-- The heap of `s` is exactly the red-black tree `t`. -/
structure Good (s : Tree) (t : T) : Prop where
  rep : TRep s t
  rb : ∃ k, RB t k
  black : t.red = false
  size : t.io.length = s.next
  lt : ∀ i ∈ t.ids, i < s.next

theorem length_plug (t : T) (fs : List Frame) : fs.length ≤ (plug t fs).io.length := by
  have : fs.length ≤ (ioL fs).length + (ioR fs).length := by
    induction fs with
    | nil => simp
    | cons f fs ih => cases hd : f.d <;> simp [ioL, ioR, hd] <;> omega
  rw [io_plug]; simp; omega

theorem attach_spec {s : Tree} {F : Frame} {fs : List Frame} (H : Good s (plug .leaf (F :: fs)))
    (k' : Key) : ∃ s' t', attach s F.i F.d k' = some (s', s.next) ∧ Good s' t' ∧
      s'.next = s.next + 1 ∧
      t'.io = ioL (F :: fs) ++ (s.next, k') :: ioR (F :: fs) := by
  have hf : s.next ∉ (plug (T.nd F.d F.i F.k F.c .leaf F.s) fs).ids := fun h =>
    absurd (H.lt _ h) (Nat.lt_irrefl _)
  have H1 := link_rep (k' := k') H.rep hf
  obtain ⟨n', hn'⟩ := H.rb
  obtain ⟨n, r1, r2, _, _⟩ := unplug_rb hn' H.black
  have hn : n = 0 := r1
  subst hn
  have hl := length_plug .leaf (F :: fs)
  rw [H.size] at hl
  obtain ⟨s', t', e1, e2, e3, e4, e5, e6⟩ := fixup_spec (fs := F :: fs) H1 r2 (by
    show _ ≤ s.next + 1; omega)
  have e3' : s'.next = s.next + 1 := e3
  have hio : t'.io = ioL (F :: fs) ++ (s.next, k') :: ioR (F :: fs) := by
    rw [e4, io_plug]; simp [T.io]
  have hold : (plug .leaf (F :: fs)).io = ioL (F :: fs) ++ ioR (F :: fs) := by
    rw [io_plug]; simp [T.io]
  have hsz := H.size
  have hlt := H.lt
  unfold T.ids at hlt
  rw [hold] at hsz hlt
  refine ⟨s', t', ?_, ⟨e2, e5, e6, ?_, ?_⟩, e3', hio⟩
  · simp only [attach]; rw [e1]; rfl
  · rw [hio, e3']; simp at hsz ⊢; omega
  · intro i hi
    unfold T.ids at hi
    rw [hio] at hi
    rw [e3']
    simp only [List.map_append, List.map_cons, List.mem_append, List.mem_cons] at hi hlt
    rcases hi with h | h | h
    · have := hlt i (Or.inl h); omega
    · omega
    · have := hlt i (Or.inr h); omega

theorem decomp {t : T} {i k} (h : (i, k) ∈ t.io) :
    ∃ fs c l r, t = plug (.node i k c l r) fs := by
  induction t with
  | leaf => simp [T.io] at h
  | node j kj c l r ihl ihr =>
    simp only [T.io, List.mem_append, List.mem_cons, Prod.mk.injEq] at h
    rcases h with h | ⟨rfl, rfl⟩ | h
    · obtain ⟨fs, c', l', r', e⟩ := ihl h
      exact ⟨fs ++ [⟨true, j, kj, c, r⟩], c', l', r', by rw [plug_append, ← e]; rfl⟩
    · exact ⟨[], c, l, r, rfl⟩
    · obtain ⟨fs, c', l', r', e⟩ := ihr h
      exact ⟨fs ++ [⟨false, j, kj, c, l⟩], c', l', r', by rw [plug_append, ← e]; rfl⟩

/-- Order of the keys. -/
def KLt : Key → Key → Prop
  | .sep a, .sep b => a < b
  | .sep a, .dest m => a ≤ m.start
  | .dest m, .sep b => m.stop ≤ b
  | .dest m, .dest m' => m.stop ≤ m'.start

/-- The key lies at or before `a`. -/
def Low (a : Nat) : Key → Prop
  | .sep x => x ≤ a
  | .dest m => m.stop ≤ a

/-- The key lies at or after `b`. -/
def High (b : Nat) : Key → Prop
  | .sep x => b ≤ x
  | .dest m => b ≤ m.start

/-- The keys of a tree in which `[start, stop)` is free. -/
structure Env (L : List Key) (start stop : Nat) : Prop where
  pw : L.Pairwise KLt
  wf : ∀ m, Key.dest m ∈ L → m.start < m.stop ∧ Key.sep m.start ∈ L ∧
    (Key.sep m.stop ∈ L ∨ m.stop = topAddr)
  cl : ∀ k ∈ L, Low start k ∨ High stop k
  tp : ∀ a, Key.sep a ∈ L → a < topAddr
  lt : start < stop
  le : stop ≤ topAddr

/-- Keys before and after a hole. -/
def kL (fs : List Frame) : List Key := (ioL fs).map (·.2)
def kR (fs : List Frame) : List Key := (ioR fs).map (·.2)

theorem keys_plug (t : T) (fs : List Frame) : (plug t fs).keys = kL fs ++ t.keys ++ kR fs := by
  unfold T.keys kL kR; rw [io_plug]; simp

@[simp] theorem keys_leaf : T.leaf.keys = [] := rfl
theorem keys_node (i k c l r) : (T.node i k c l r).keys = l.keys ++ k :: r.keys := by
  simp [T.keys, T.io]

theorem kL_cons (f : Frame) (fs : List Frame) :
    kL (f :: fs) = kL fs ++ (if f.d then [] else f.s.keys ++ [f.k]) := by
  unfold kL T.keys; cases hd : f.d <;> simp [ioL, hd]
theorem kR_cons (f : Frame) (fs : List Frame) :
    kR (f :: fs) = (if f.d then f.k :: f.s.keys else []) ++ kR fs := by
  unfold kR T.keys; cases hd : f.d <;> simp [ioR, hd]

/-- The order around a node. -/
theorem order_at {fs i k c l r} (h : (plug (.node i k c l r) fs).keys.Pairwise KLt) :
    (∀ x ∈ kL fs ++ l.keys, KLt x k) ∧ (∀ x ∈ r.keys ++ kR fs, KLt k x) := by
  have e : (plug (.node i k c l r) fs).keys = (kL fs ++ l.keys) ++ k :: (r.keys ++ kR fs) := by
    rw [keys_plug, keys_node]; simp
  rw [e, List.pairwise_append, List.pairwise_cons] at h
  exact ⟨fun x hx => h.2.2 x hx k (by simp), h.2.1.1⟩

theorem mem_at {fs i k c l r x} : x ∈ (plug (.node i k c l r) fs).keys ↔
    x ∈ kL fs ∨ x ∈ l.keys ∨ x = k ∨ x ∈ r.keys ∨ x ∈ kR fs := by
  rw [keys_plug, keys_node]
  simp only [List.mem_append, List.mem_cons]
  constructor
  · rintro ((h | h | h | h) | h) <;> simp only [h, true_or, or_true]
  · rintro (h | h | h | h | h) <;> simp only [h, true_or, or_true]

theorem low_of_klt {a k x} (hk : ∀ m, k = .dest m → m.start < m.stop) (h : Low a k) (hx : KLt x k) :
    Low a x := by
  cases k with
  | sep y =>
    cases x with
    | sep z => simp only [Low, KLt] at *; omega
    | dest m => simp only [Low, KLt] at *; omega
  | dest m' =>
    have := hk m' rfl
    cases x with
    | sep z => simp only [Low, KLt] at *; omega
    | dest m => simp only [Low, KLt] at *; omega

theorem high_of_klt {a k x} (hk : ∀ m, k = .dest m → m.start < m.stop) (h : High a k) (hx : KLt k x) :
    High a x := by
  cases k with
  | sep y =>
    cases x with
    | sep z => simp only [High, KLt] at *; omega
    | dest m => simp only [High, KLt] at *; omega
  | dest m' =>
    have := hk m' rfl
    cases x with
    | sep z => simp only [High, KLt] at *; omega
    | dest m => simp only [High, KLt] at *; omega

theorem low_high {L start stop k} (E : Env L start stop) (hk : k ∈ L) (h1 : Low start k)
    (h2 : High stop k) : False := by
  have := E.lt
  cases k with
  | sep y => simp only [Low, High] at *; omega
  | dest m => have := (E.wf m hk).1; simp only [Low, High] at *; omega

theorem high_after_start {L start stop k} (E : Env L start stop) (hk : k ∈ L)
    (h : KLt (.sep start) k) : High stop k := by
  rcases E.cl k hk with h1 | h1
  · exfalso
    cases k with
    | sep y => simp only [Low, KLt] at *; omega
    | dest m => have := (E.wf m hk).1; simp only [Low, KLt] at *; omega
  · exact h1

theorem low_before_stop {L start stop k} (E : Env L start stop) (hk : k ∈ L)
    (h : KLt k (.sep stop)) : Low start k := by
  rcases E.cl k hk with h1 | h1
  · exact h1
  · exfalso
    cases k with
    | sep y => simp only [High, KLt] at *; omega
    | dest m => have := (E.wf m hk).1; simp only [High, KLt] at *; omega

theorem klt_irrefl {L start stop k} (E : Env L start stop) (hk : k ∈ L) : ¬ KLt k k := by
  cases k with
  | sep y => simp [KLt]
  | dest m => have := (E.wf m hk).1; simp only [KLt]; omega

/-- Inserting a key between two parts of an ordered list. -/
theorem pairwise_insert {A B : List Key} {k : Key} (h : (A ++ B).Pairwise KLt)
    (h1 : ∀ x ∈ A, KLt x k) (h2 : ∀ x ∈ B, KLt k x) : (A ++ k :: B).Pairwise KLt := by
  rw [List.pairwise_append] at h ⊢
  refine ⟨h.1, List.pairwise_cons.2 ⟨h2, h.2.1⟩, ?_⟩
  intro x hx y hy
  rcases List.mem_cons.1 hy with rfl | hy
  · exact h1 x hx
  · exact h.2.2 x hx y hy

/-- What `max` says about the keys after a place. -/
def HeadOK (L : List Key) (max : Nat) : Prop :=
  match L.head? with
  | none => max = topAddr
  | some (.sep a) => max = a
  | some (.dest _) => True

theorem Env.insert {L L' : List Key} {start stop : Nat} {a : Nat} (E : Env L start stop)
    (pw : L'.Pairwise KLt) (hm : ∀ x, x ∈ L' ↔ x ∈ L ∨ x = .sep a) (hc : a ≤ start ∨ stop ≤ a)
    (ha : a < topAddr) : Env L' start stop := by
  refine ⟨pw, ?_, ?_, ?_, E.lt, E.le⟩
  · intro m h
    rcases (hm _).1 h with h | h
    · obtain ⟨h1, h2, h3⟩ := E.wf m h
      exact ⟨h1, (hm _).2 (Or.inl h2), h3.imp (fun h => (hm _).2 (Or.inl h)) id⟩
    · cases h
  · intro k h
    rcases (hm _).1 h with h | rfl
    · exact E.cl k h
    · exact hc
  · intro b h
    rcases (hm _).1 h with h | h
    · exact E.tp b h
    · cases h; exact ha

theorem node_of_mem {t : T} {x : Key} (h : x ∈ t.keys) : ∃ i k c l r, t = .node i k c l r := by
  cases t with
  | leaf => simp at h
  | node i k c l r => exact ⟨i, k, c, l, r, rfl⟩

theorem split_unique {α : Type _} {p : α} : ∀ {A A' B B' : List α}, p ∉ A → p ∉ A' →
    A ++ p :: B = A' ++ p :: B' → B = B' := by
  intro A
  induction A with
  | nil =>
    intro A' B B' _ h2 e
    cases A' with
    | nil => simpa using e
    | cons x A' =>
      simp only [List.nil_append, List.cons_append, List.cons.injEq] at e
      exact absurd (by rw [e.1]; simp) h2
  | cons x A ih =>
    intro A' B B' h1 h2 e
    cases A' with
    | nil =>
      simp only [List.nil_append, List.cons_append, List.cons.injEq] at e
      exact absurd (by rw [e.1]; simp) h1
    | cons y A' =>
      simp only [List.cons_append, List.cons.injEq] at e
      exact ih (fun h => h1 (List.mem_cons_of_mem _ h)) (fun h => h2 (List.mem_cons_of_mem _ h)) e.2

/-- The left child exists where the walk needs it. -/
theorem left_exists {fs i m c l r start stop} (E : Env (plug (.node i (.dest m) c l r) fs).keys start stop)
    (hm : stop ≤ m.start) (hL : ∀ x ∈ kL fs, Low start x) : ∃ j k c' l' r', l = .node j k c' l' r' := by
  obtain ⟨h1, h2, _⟩ := E.wf m (mem_at.2 (Or.inr (Or.inr (Or.inl rfl))))
  have ho := order_at E.pw
  have hlt := E.lt
  rcases mem_at.1 h2 with h | h | h | h | h
  · have h := hL _ h; simp only [Low] at h; omega
  · exact node_of_mem h
  · cases h
  · have := ho.2 _ (List.mem_append_left _ h); simp only [KLt] at this; omega
  · have := ho.2 _ (List.mem_append_right _ h); simp only [KLt] at this; omega

/-- The right child exists where the walk needs it. -/
theorem right_exists {fs i m c l r start stop}
    (E : Env (plug (.node i (.dest m) c l r) fs).keys start stop)
    (hm : m.stop ≤ start) (hR : ∀ x ∈ kR fs, High stop x) : ∃ j k c' l' r', r = .node j k c' l' r' := by
  obtain ⟨h1, _, h2⟩ := E.wf m (mem_at.2 (Or.inr (Or.inr (Or.inl rfl))))
  have ho := order_at E.pw
  have hlt := E.lt
  have hle := E.le
  rcases h2 with h2 | h2
  · rcases mem_at.1 h2 with h | h | h | h | h
    · have := ho.1 _ (List.mem_append_left _ h); simp only [KLt] at this; omega
    · have := ho.1 _ (List.mem_append_right _ h); simp only [KLt] at this; omega
    · cases h
    · exact node_of_mem h
    · have h := hR _ h; simp only [High] at h; omega
  · omega

/-- The first phase: after it the tree holds the separator `start`. -/
theorem placeStart_spec {start stop : Nat} : ∀ (t : T) (fuel : Nat) (fs : List Frame) (s : Tree)
    (n max : Nat), Good s (plug t fs) → t.root = some n → Env (plug t fs).keys start stop →
    (∀ x ∈ kL fs, Low start x ∧ x ≠ .sep start) → (∀ x ∈ kR fs, High stop x) →
    HeadOK (kR fs) max → start < max → t.io.length < fuel →
    ∃ s' n' max' fs' c l r, placeStart fuel s n max start = some (s', n', max') ∧
      Good s' (plug (.node n' (.sep start) c l r) fs') ∧
      Env (plug (.node n' (.sep start) c l r) fs').keys start stop ∧
      (∀ x, x ∈ (plug (.node n' (.sep start) c l r) fs').keys ↔ x ∈ (plug t fs).keys ∨ x = .sep start) ∧
      (r = .leaf → HeadOK (kR fs') max') ∧ start < max' := by
  intro t
  induction t with
  | leaf => intro _ _ _ _ _ _ h; cases h
  | node i k c l r ihl ihr =>
    intro fuel fs s n max G hn E hL hR hh hmax hfuel
    have : i = n := by simpa [T.root] using hn
    subst this
    obtain ⟨fuel, rfl⟩ : ∃ m, fuel = m + 1 := ⟨fuel - 1, by omega⟩
    have hlen : l.io.length < fuel ∧ r.io.length < fuel := by
      simp [T.io] at hfuel; omega
    have hi : s.h i = ⟨k, c, l.root, r.root, par fs⟩ := G.rep.focus.2.1
    have ho := order_at E.pw
    have hself : k ∈ (plug (.node i k c l r) fs).keys := mem_at.2 (Or.inr (Or.inr (Or.inl rfl)))
    have hwf : ∀ m, k = .dest m → m.start < m.stop := fun m h => (E.wf m (h ▸ hself)).1
    have hlt := E.lt
    have hle := E.le
    -- going right
    have goR : Low start k → k ≠ .sep start →
        ∀ x ∈ kL (⟨false, i, k, c, l⟩ :: fs), Low start x ∧ x ≠ .sep start := by
      intro hlow hne x hx
      rw [kL_cons] at hx
      simp only [Bool.false_eq_true, if_false, List.mem_append, List.mem_singleton] at hx
      have key : ∀ x, KLt x k → Low start x ∧ x ≠ .sep start := by
        intro x hx
        refine ⟨low_of_klt hwf hlow hx, ?_⟩
        rintro rfl
        cases k with
        | sep y =>
          simp only [KLt, Low] at *
          omega
        | dest m => have := hwf m rfl; simp only [KLt, Low] at *; omega
      rcases hx with h | h | rfl
      · exact hL x h
      · exact key x (ho.1 x (List.mem_append_right _ h))
      · exact ⟨hlow, hne⟩
    -- going left
    have goL : High stop k → ∀ x ∈ kR (⟨true, i, k, c, r⟩ :: fs), High stop x := by
      intro hhi x hx
      rw [kR_cons] at hx
      simp only [if_true, List.mem_append, List.mem_cons] at hx
      rcases hx with (rfl | h) | h
      · exact hhi
      · exact high_of_klt hwf hhi (ho.2 x (List.mem_append_left _ h))
      · exact hR x h
    have hkRF : kR (⟨false, i, k, c, l⟩ :: fs) = kR fs := by rw [kR_cons]; simp
    have hkLT : kL (⟨true, i, k, c, r⟩ :: fs) = kL fs := by rw [kL_cons]; simp
    -- insertion of the separator
    have ins : ∀ (F : Frame) (max' : Nat), plug .leaf (F :: fs) = plug (.node i k c l r) fs → F.i = i →
        (∀ x ∈ kL (F :: fs), Low start x ∧ x ≠ .sep start) → (∀ x ∈ kR (F :: fs), High stop x) →
        HeadOK (kR (F :: fs)) max' → start < max' →
        ∃ s' n' fs' c' l' r', attach s i F.d (.sep start) = some (s', n') ∧
          Good s' (plug (.node n' (.sep start) c' l' r') fs') ∧
          Env (plug (.node n' (.sep start) c' l' r') fs').keys start stop ∧
          (∀ x, x ∈ (plug (.node n' (.sep start) c' l' r') fs').keys ↔
            x ∈ (plug (.node i k c l r) fs).keys ∨ x = .sep start) ∧
          (r' = .leaf → HeadOK (kR fs') max') := by
      intro F max' hF hFi hFL hFR hFh hm'
      have G' : Good s (plug .leaf (F :: fs)) := hF ▸ G
      obtain ⟨s', t', e1, e2, e3, e4⟩ := attach_spec G' (.sep start)
      have hmem : (s.next, Key.sep start) ∈ t'.io := by rw [e4]; simp
      obtain ⟨fs', c', l', r', rfl⟩ := decomp hmem
      have hkeys : (plug (.node s.next (.sep start) c' l' r') fs').keys =
          kL (F :: fs) ++ .sep start :: kR (F :: fs) := by
        show List.map _ _ = _
        rw [e4]; simp [kL, kR]
      have hold : (plug (.node i k c l r) fs).keys = kL (F :: fs) ++ kR (F :: fs) := by
        rw [← hF, keys_plug]; simp
      have hpw : (kL (F :: fs) ++ .sep start :: kR (F :: fs)).Pairwise KLt := by
        refine pairwise_insert (hold ▸ E.pw) ?_ ?_
        · intro x hx
          obtain ⟨h1, h2⟩ := hFL x hx
          cases x with
          | sep y =>
            have : y ≠ start := fun h => h2 (by rw [h])
            simp only [Low, KLt] at *; omega
          | dest m => exact h1
        · intro x hx
          have h1 := hFR x hx
          cases x with
          | sep y => simp only [High, KLt] at *; omega
          | dest m => simp only [High, KLt] at *; omega
      have hmm : ∀ x, x ∈ (plug (.node s.next (.sep start) c' l' r') fs').keys ↔
            x ∈ (plug (.node i k c l r) fs).keys ∨ x = .sep start := by
        intro x
        rw [hkeys, hold]
        simp only [List.mem_append, List.mem_cons]
        constructor
        · rintro (h | h | h) <;> simp only [h, true_or, or_true]
        · rintro ((h | h) | h) <;> simp only [h, true_or, or_true]
      refine ⟨s', s.next, fs', c', l', r', by rw [← hFi]; exact e1, e2, ?_, hmm, ?_⟩
      · exact E.insert (hkeys ▸ hpw) hmm (Or.inl (Nat.le_refl _)) (by omega)
      · rintro rfl
        have h1 : (plug (.node s.next (.sep start) c' l' .leaf) fs').io =
            (ioL fs' ++ l'.io) ++ (s.next, .sep start) :: ioR fs' := by
          rw [io_plug]; simp [T.io]
        rw [h1] at e4
        have hnd := e2.rep.nodup
        unfold T.ids at hnd
        rw [h1] at hnd
        have hndo := G'.lt
        have hB : ioR fs' = ioR (F :: fs) := by
          have n1 : ∀ p ∈ ioL fs' ++ l'.io, p.1 ≠ s.next := by
            intro p hp he
            rw [List.map_append, List.nodup_append] at hnd
            exact hnd.2.2 p.1 (List.mem_map_of_mem hp) s.next (by simp) he
          have n2 : ∀ p ∈ ioL (F :: fs), p.1 ≠ s.next := by
            intro p hp he
            have hm : p.1 ∈ (plug .leaf (F :: fs)).ids := by
              unfold T.ids; rw [io_plug]
              exact List.mem_map_of_mem (List.mem_append_left _ (List.mem_append_left _ hp))
            have := hndo _ hm; omega
          exact split_unique (p := (s.next, Key.sep start)) (fun h => n1 _ h rfl) (fun h => n2 _ h rfl) e4
        unfold kR; rw [hB]; exact hFh
    cases k with
    | dest m =>
      have hcl := E.cl _ hself
      rcases hcl with hlow | hhi
      · obtain ⟨j, kj, cj, lj, rj, hr⟩ := right_exists E hlow hR
        have hw := hwf m rfl
        have hlow' : m.stop ≤ start := hlow
        have hrr : r.root = some j := by rw [hr]; rfl
        have h1 := goR hlow (by simp)
        obtain ⟨s', n', max', fs', c', l', r', q⟩ := ihr fuel (⟨false, i, .dest m, c, l⟩ :: fs) s j max G hrr E h1
          (by rw [hkRF]; exact hR) (by rw [hkRF]; exact hh) hmax hlen.2
        refine ⟨s', n', max', fs', c', l', r', ?_, q.2⟩
        rw [placeStart, hi]
        simp only [hrr]
        rw [if_neg (by omega), if_pos (by omega)]
        exact q.1
      · obtain ⟨j, kj, cj, lj, rj, hr⟩ := left_exists E hhi (fun x hx => (hL x hx).1)
        have hhi' : stop ≤ m.start := hhi
        have hrr : l.root = some j := by rw [hr]; rfl
        obtain ⟨s', n', max', fs', c', l', r', q⟩ := ihl fuel (⟨true, i, .dest m, c, r⟩ :: fs) s j max G hrr E
          (by rw [hkLT]; exact hL) (goL hhi) (by rw [kR_cons]; simp [HeadOK]) hmax hlen.1
        refine ⟨s', n', max', fs', c', l', r', ?_, q.2⟩
        rw [placeStart, hi]
        simp only [hrr]
        rw [if_pos (by omega)]
        exact q.1
    | sep a =>
      by_cases ha : a = start
      · subst ha
        refine ⟨s, i, max, fs, c, l, r, ?_, G, E, ?_, fun _ => hh, hmax⟩
        · rw [placeStart, hi]; simp
        · intro x; exact ⟨Or.inl, fun h => h.elim id (fun h => h ▸ hself)⟩
      · by_cases hlta : a < start
        · have h1 := goR (show Low start (.sep a) from Nat.le_of_lt hlta) (by simp [ha])
          cases r with
          | leaf =>
            obtain ⟨s', n', fs', c', l', r', q1, q2⟩ := ins ⟨false, i, .sep a, c, l⟩ max rfl rfl h1
              (by rw [hkRF]; exact hR) (by rw [hkRF]; exact hh) hmax
            refine ⟨s', n', max, fs', c', l', r', ?_, q2.1, q2.2.1, q2.2.2.1, q2.2.2.2, hmax⟩
            rw [placeStart, hi]
            simp only [if_neg ha, if_pos hlta, T.root]
            simp only at q1
            rw [q1]; rfl
          | node j kj cj lj rj =>
            obtain ⟨s', n', max', fs', c', l', r', q⟩ := ihr fuel (⟨false, i, .sep a, c, l⟩ :: fs) s j max G rfl E h1
              (by rw [hkRF]; exact hR) (by rw [hkRF]; exact hh) hmax hlen.2
            refine ⟨s', n', max', fs', c', l', r', ?_, q.2⟩
            rw [placeStart, hi]
            simp only [if_neg ha, if_pos hlta, T.root]
            exact q.1
        · have hhi : High stop (.sep a) := by
            rcases E.cl _ hself with h | h
            · simp only [Low] at h; omega
            · exact h
          have hhi' : stop ≤ a := hhi
          have hh' : HeadOK (kR (⟨true, i, .sep a, c, r⟩ :: fs)) a := by rw [kR_cons]; simp [HeadOK]
          cases l with
          | leaf =>
            obtain ⟨s', n', fs', c', l', r', q1, q2⟩ := ins ⟨true, i, .sep a, c, r⟩ a rfl rfl
              (by rw [hkLT]; exact hL) (goL hhi) hh' (by omega)
            refine ⟨s', n', a, fs', c', l', r', ?_, q2.1, q2.2.1, q2.2.2.1, q2.2.2.2, by omega⟩
            rw [placeStart, hi]
            simp only [if_neg ha, if_neg hlta, T.root]
            simp only at q1
            rw [q1]; rfl
          | node j kj cj lj rj =>
            obtain ⟨s', n', max', fs', c', l', r', q⟩ := ihl fuel (⟨true, i, .sep a, c, r⟩ :: fs) s j a G rfl E
              (by rw [hkLT]; exact hL) (goL hhi) hh' (by omega) hlen.1
            refine ⟨s', n', max', fs', c', l', r', ?_, q.2⟩
            rw [placeStart, hi]
            simp only [if_neg ha, if_neg hlta, T.root]
            exact q.1

end Sparta.MemoryMap
