import Verif.MemoryMap.Model

/-!
The heap of `SimpleMemoryMap` as a tree: abstraction, rotations, recolouring, insertion of a leaf.
-/

namespace Sparta.MemoryMap

/-- A tree of nodes; every node has its number in the heap, its key and its colour. -/
inductive T where
  | leaf
  | node (i : Nat) (k : Key) (c : Bool) (l r : T)

/-- A node with subtree `a` on side `d` and `b` on the other side. -/
def T.nd (d : Bool) (i : Nat) (k : Key) (c : Bool) (a b : T) : T :=
  if d then .node i k c a b else .node i k c b a

/-- Number of the root. -/
def T.root : T → Option Nat
  | .leaf => none
  | .node i _ _ _ _ => some i

def T.red : T → Bool
  | .leaf => false
  | .node _ _ c _ _ => c

/-- The nodes with their keys in order. -/
def T.io : T → List (Nat × Key)
  | .leaf => []
  | .node i k _ l r => l.io ++ (i, k) :: r.io

/-- Node numbers. -/
def T.ids (t : T) : List Nat := t.io.map (·.1)

/-- Keys in order. -/
def T.keys (t : T) : List Key := t.io.map (·.2)

/-- One step of a path from a hole to the root: the hole is the `d` child of node `i`, whose other
subtree is `s`. -/
structure Frame where
  d : Bool
  i : Nat
  k : Key
  c : Bool
  s : T

def plug (t : T) : List Frame → T
  | [] => t
  | f :: fs => plug (T.nd f.d f.i f.k f.c t f.s) fs

/-- Nodes before the hole. -/
def ioL : List Frame → List (Nat × Key)
  | [] => []
  | f :: fs => ioL fs ++ (if f.d then [] else f.s.io ++ [(f.i, f.k)])

/-- Nodes after the hole. -/
def ioR : List Frame → List (Nat × Key)
  | [] => []
  | f :: fs => (if f.d then (f.i, f.k) :: f.s.io else []) ++ ioR fs

theorem io_plug (t : T) (fs : List Frame) : (plug t fs).io = ioL fs ++ t.io ++ ioR fs := by
  induction fs generalizing t with
  | nil => simp [plug, ioL, ioR]
  | cons f fs ih =>
    rw [plug, ih]
    cases hd : f.d <;> simp [T.nd, T.io, ioL, ioR, hd]

theorem plug_append (t : T) (a b : List Frame) : plug t (a ++ b) = plug (plug t a) b := by
  induction a generalizing t with
  | nil => rfl
  | cons f fs ih => simp [plug, ih]

/-- The heap `h` holds the tree `t` below the parent pointer `p`. -/
def Rep (h : Nat → Node) : Option Nat → T → Prop
  | _, .leaf => True
  | p, .node i k c l r => h i = ⟨k, c, l.root, r.root, p⟩ ∧ Rep h (some i) l ∧ Rep h (some i) r

/-- A node of the heap with child `x` on side `d` and `y` on the other. -/
def mkNode (d : Bool) (k : Key) (c : Bool) (x y p : Option Nat) : Node :=
  if d then ⟨k, c, x, y, p⟩ else ⟨k, c, y, x, p⟩

theorem rep_nd {h p d i k c a b} : Rep h p (T.nd d i k c a b) ↔
    h i = mkNode d k c a.root b.root p ∧ Rep h (some i) a ∧ Rep h (some i) b := by
  cases d
  · simp [T.nd, Rep, mkNode, and_comm]
  · simp [T.nd, Rep, mkNode]

@[simp] theorem root_nd (d i k c a b) : (T.nd d i k c a b).root = some i := by
  cases d <;> rfl

/-- Parent pointer of the hole. -/
def par : List Frame → Option Nat
  | [] => none
  | f :: _ => some f.i

/-- The heap holds the nodes of the path, with `x` in the hole. -/
def RepC (h : Nat → Node) : List Frame → Option Nat → Prop
  | [], _ => True
  | f :: fs, x => h f.i = mkNode f.d f.k f.c x f.s.root (par fs) ∧ Rep h (some f.i) f.s ∧
      RepC h fs (some f.i)

theorem rep_plug {h t fs} : Rep h none (plug t fs) ↔ RepC h fs t.root ∧ Rep h (par fs) t := by
  induction fs generalizing t with
  | nil => simp [plug, RepC, par]
  | cons f fs ih =>
    rw [plug, ih, rep_nd, root_nd]
    simp only [RepC, par]
    constructor
    · rintro ⟨a, b, c, d⟩; exact ⟨⟨b, d, a⟩, c⟩
    · rintro ⟨⟨b, d, a⟩, c⟩; exact ⟨a, b, c, d⟩

/-- Node numbers of a path. -/
def idsC (fs : List Frame) : List Nat := (ioL fs).map (·.1) ++ (ioR fs).map (·.1)

theorem ids_nd {d i k c a b} {j : Nat} :
    j ∈ (T.nd d i k c a b).ids ↔ j = i ∨ j ∈ a.ids ∨ j ∈ b.ids := by
  cases d <;> simp only [T.nd, T.ids, T.io, List.map_append, List.map_cons, List.mem_append,
    List.mem_cons, Bool.false_eq_true, if_false, if_true]
  · constructor
    · rintro (h | h | h) <;> simp [h]
    · rintro (h | h | h) <;> simp [h]
  · constructor
    · rintro (h | h | h) <;> simp [h]
    · rintro (h | h | h) <;> simp [h]

theorem idsC_cons {f fs} {j : Nat} :
    j ∈ idsC (f :: fs) ↔ j = f.i ∨ j ∈ f.s.ids ∨ j ∈ idsC fs := by
  unfold idsC T.ids
  cases hd : f.d <;> simp only [ioL, ioR, hd, List.map_append, List.mem_append, List.map_cons,
    List.mem_cons, Bool.false_eq_true, if_false, if_true, List.map_nil, List.not_mem_nil, or_false,
    false_or]
  · constructor
    · rintro ((h | h | h) | h) <;> simp only [h, true_or, or_true]
    · rintro (h | h | h | h) <;> simp only [h, true_or, or_true]
  · constructor
    · rintro (h | (h | h) | h) <;> simp only [h, true_or, or_true]
    · rintro (h | h | h | h) <;> simp only [h, true_or, or_true]

theorem rep_frame {h h' p t} (hr : Rep h p t) (e : ∀ j ∈ t.ids, h' j = h j) : Rep h' p t := by
  induction t generalizing p with
  | leaf => trivial
  | node i k c l r ihl ihr =>
    obtain ⟨a, b, d⟩ := hr
    have hm : ∀ j, j ∈ (T.node i k c l r).ids ↔ j = i ∨ j ∈ l.ids ∨ j ∈ r.ids := fun j =>
      ids_nd (d := true)
    exact ⟨by rw [e i ((hm i).2 (Or.inl rfl)), a],
      ihl b (fun j hj => e j ((hm j).2 (Or.inr (Or.inl hj)))),
      ihr d (fun j hj => e j ((hm j).2 (Or.inr (Or.inr hj))))⟩

theorem repC_frame {h h' x fs} (hr : RepC h fs x) (e : ∀ j ∈ idsC fs, h' j = h j) :
    RepC h' fs x := by
  induction fs generalizing x with
  | nil => trivial
  | cons f fs ih =>
    obtain ⟨a, b, d⟩ := hr
    exact ⟨by rw [e f.i (idsC_cons.2 (Or.inl rfl)), a],
      rep_frame b (fun j hj => e j (idsC_cons.2 (Or.inr (Or.inl hj)))),
      ih d (fun j hj => e j (idsC_cons.2 (Or.inr (Or.inr hj))))⟩

/-- Only the root of a subtree has its parent pointer changed. -/
theorem rep_reparent {h h' p q t} (hr : Rep h p t) (nd : t.ids.Nodup)
    (e : ∀ j ∈ t.ids, some j ≠ t.root → h' j = h j)
    (er : ∀ j, t.root = some j → h' j = { h j with parent := q }) : Rep h' q t := by
  cases t with
  | leaf => trivial
  | node i k c l r =>
    obtain ⟨a, b, d⟩ := hr
    have hm : ∀ j, j ∈ (T.node i k c l r).ids ↔ j = i ∨ j ∈ l.ids ∨ j ∈ r.ids := fun j =>
      ids_nd (d := true)
    have nd' : (T.node i k c l r).ids = l.ids ++ i :: r.ids := by simp [T.ids, T.io]
    rw [nd', List.nodup_append] at nd
    obtain ⟨_, n2, n3⟩ := nd
    have hl : i ∉ l.ids := fun hi => n3 i hi i (by simp) rfl
    have hr' : i ∉ r.ids := (List.nodup_cons.1 n2).1
    refine ⟨by rw [er i rfl, a], rep_frame b ?_, rep_frame d ?_⟩
    · intro j hj
      refine e j ((hm j).2 (Or.inr (Or.inl hj))) ?_
      rintro h; cases h; exact hl hj
    · intro j hj
      refine e j ((hm j).2 (Or.inr (Or.inr hj))) ?_
      rintro h; cases h; exact hr' hj

/-- The number of a node in the hole, and everything about distinctness. -/
theorem nodup_plug {t : T} {fs : List Frame} : (plug t fs).ids.Nodup ↔
    t.ids.Nodup ∧ (idsC fs).Nodup ∧ ∀ j ∈ t.ids, j ∉ idsC fs := by
  unfold T.ids idsC
  rw [io_plug]
  simp only [List.map_append, List.nodup_append, List.mem_append]
  constructor
  · rintro ⟨⟨a, b, c⟩, d, e⟩
    refine ⟨b, ⟨a, d, fun x hx y hy => e x (Or.inl hx) y hy⟩, ?_⟩
    rintro j hj (h | h)
    · exact c _ h _ hj rfl
    · exact e _ (Or.inr hj) _ h rfl
  · rintro ⟨a, ⟨b, c, d⟩, e⟩
    refine ⟨⟨b, a, ?_⟩, c, ?_⟩
    · rintro x hx y hy rfl; exact e x hy (Or.inl hx)
    · rintro x (hx | hx) y hy rfl
      · exact d x hx x hy rfl
      · exact e x hx (Or.inr hy)

theorem nodup_nd {d i k c a b} : (T.nd d i k c a b).ids.Nodup ↔
    i ∉ a.ids ∧ i ∉ b.ids ∧ a.ids.Nodup ∧ b.ids.Nodup ∧ ∀ j ∈ a.ids, j ∉ b.ids := by
  have : (T.nd d i k c a b).ids = if d then a.ids ++ i :: b.ids else b.ids ++ i :: a.ids := by
    cases d <;> simp [T.nd, T.ids, T.io]
  rw [this]
  cases d <;> simp only [Bool.false_eq_true, if_false, if_true, List.nodup_append,
    List.nodup_cons, List.mem_cons]
  · constructor
    · rintro ⟨x, ⟨y, z⟩, w⟩
      refine ⟨y, fun h => w i h i (Or.inl rfl) rfl, z, x, ?_⟩
      intro j hj hj'; exact w j hj' j (Or.inr hj) rfl
    · rintro ⟨x, y, z, w, v⟩
      refine ⟨w, ⟨x, z⟩, ?_⟩
      rintro j hj k (rfl | hk) rfl
      · exact y hj
      · exact v _ hk hj
  · constructor
    · rintro ⟨x, ⟨y, z⟩, w⟩
      refine ⟨fun h => w i h i (Or.inl rfl) rfl, y, x, z, ?_⟩
      intro j hj hj'; exact w j hj j (Or.inr hj') rfl
    · rintro ⟨x, y, z, w, v⟩
      refine ⟨z, ⟨y, w⟩, ?_⟩
      rintro j hj k (rfl | hk) rfl
      · exact x hj
      · exact v _ hj hk

/-- The hole of a path gets another content. -/
theorem repC_refill {h h' x y f fs} (hr : RepC h (f :: fs) x) (hd : (idsC (f :: fs)).Nodup)
    (e : ∀ j ∈ idsC (f :: fs), j ≠ f.i → h' j = h j)
    (ef : h' f.i = (h f.i).setCh f.d y) : RepC h' (f :: fs) y := by
  obtain ⟨a, b, d⟩ := hr
  have h1 : f.i ∉ f.s.ids ∧ f.i ∉ idsC fs := by
    have h0 : (plug .leaf (f :: fs)).ids.Nodup :=
      nodup_plug.2 ⟨by simp [T.ids, T.io], hd, by simp [T.ids, T.io]⟩
    rw [plug, nodup_plug, nodup_nd] at h0
    exact ⟨h0.1.2.1, h0.2.2 _ (ids_nd.2 (Or.inl rfl))⟩
  refine ⟨?_, rep_frame b ?_, repC_frame d ?_⟩
  · rw [ef, a]; cases f.d <;> rfl
  · intro j hj
    exact e j (idsC_cons.2 (Or.inr (Or.inl hj))) (fun hji => h1.1 (hji ▸ hj))
  · intro j hj
    exact e j (idsC_cons.2 (Or.inr (Or.inr hj))) (fun hji => h1.2 (hji ▸ hj))

end Sparta.MemoryMap
