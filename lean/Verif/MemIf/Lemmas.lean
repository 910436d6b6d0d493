import Verif.MemIf.Spec
import Verif.ArchData.Lemmas2
import Verif.MemoryMap.Props

/-!
# Lemmas on blocks and on walks through interfaces
-/

namespace Sparta.MemIf

open Sparta.MemoryMap (wordSize Mapping)

/-! ### Blocks -/

theorem base_eq {n : Node} (h : 2 ^ n.bs.log2 = n.bs) (a : Nat) : n.base a = a / n.bs * n.bs := by
  rw [Node.base, land_mask, h]
  have := Nat.div_add_mod a n.bs
  rw [Nat.mul_comm] at this
  omega

theorem bs_pos {bs : Nat} (h : 2 ^ bs.log2 = bs) : 0 < bs := by
  rw [← h]; exact Nat.two_pow_pos _

theorem w64_of_lt {k : Nat} (h : k < wordSize) : w64 k = k := Nat.mod_eq_of_lt h

theorem w64_sub {a b : Nat} (h : a ≤ b) (hb : b < wordSize) : w64 (b + (wordSize - a)) = b - a := by
  rw [w64, show b + (wordSize - a) = (b - a) + wordSize by omega, Nat.add_mod_right]
  exact Nat.mod_eq_of_lt (by omega)

theorem spans_eq {n : Node} (h : 2 ^ n.bs.log2 = n.bs) {a k : Nat} (hs : sized a k) :
    n.spans a k = (a / n.bs != (a + k - 1) / n.bs) := by
  have h0 := bs_pos h
  have h1 := hs.1
  have e : w64 (w64 (a + k) + (wordSize - 1)) = a + k - 1 := by
    rw [w64_of_lt hs.2]
    exact w64_sub (by omega) hs.2
  rw [Node.spans, e, base_eq h, base_eq h]
  rw [Bool.eq_iff_iff]
  simp only [bne_iff_ne, ne_eq]
  constructor
  · intro h e; rw [e] at h; exact h rfl
  · intro h e; exact h (Nat.eq_of_mul_eq_mul_right h0 e)

theorem inWindow_eq {n : Node} (hlo : n.lo = 0) {a k : Nat} (hs : sized a k) :
    n.inWindow a k = decide (a + k ≤ n.hi) := by
  rw [Node.inWindow, hlo, w64_of_lt hs.2]; simp

/-- the end of the block of `a` is at most a multiple of the block size above `a` -/
theorem block_end_le {bs a t : Nat} (h0 : 0 < bs) (hd : bs ∣ t) (ha : a < t) : (a / bs + 1) * bs ≤ t := by
  obtain ⟨q, rfl⟩ := hd
  have : a / bs < q := (Nat.div_lt_iff_lt_mul h0).2 (by rw [Nat.mul_comm]; exact ha)
  rw [Nat.mul_comm bs q]
  exact Nat.mul_le_mul_right _ this

theorem block_start_ge {bs a t : Nat} (h0 : 0 < bs) (hd : bs ∣ t) (ha : t ≤ a) : t ≤ a / bs * bs := by
  obtain ⟨q, rfl⟩ := hd
  have : q ≤ a / bs := (Nat.le_div_iff_mul_le h0).2 (by rw [Nat.mul_comm]; exact ha)
  rw [Nat.mul_comm bs q]
  exact Nat.mul_le_mul_right _ this

/-- addresses of one block are on the same side of a multiple of the block size -/
theorem block_lt_iff {bs a b t : Nat} (h0 : 0 < bs) (hd : bs ∣ t) (hb : b / bs = a / bs) : b < t ↔ a < t := by
  have key : ∀ {a b : Nat}, b / bs = a / bs → a < t → b < t := by
    intro a b hb ha
    have h1 := block_end_le h0 hd ha
    have h2 := Nat.lt_mul_div_succ b h0
    rw [Nat.mul_comm, hb] at h2
    omega
  exact ⟨key hb.symm, key hb⟩

theorem block_le_iff {bs a b t : Nat} (h0 : 0 < bs) (hd : bs ∣ t) (hb : b / bs = a / bs) : t ≤ b ↔ t ≤ a := by
  have := block_lt_iff h0 hd hb
  omega

/-- an access in one block -/
def inBlock (bs a k : Nat) : Prop := a % bs + k ≤ bs

theorem inBlock_iff {bs a k : Nat} (h0 : 0 < bs) (hk : 0 < k) : inBlock bs a k ↔ a / bs = (a + k - 1) / bs := by
  unfold inBlock
  have e := Nat.div_add_mod a bs
  have hm := Nat.mod_lt a h0
  constructor
  · intro h
    symm
    rw [Nat.div_eq_iff h0]
    rw [Nat.mul_comm] at e
    constructor
    · omega
    · omega
  · intro h
    have h2 := Nat.lt_mul_div_succ (a + k - 1) h0
    rw [← h, Nat.mul_add] at h2
    omega

theorem inBlock_div {bs a k j : Nat} (h0 : 0 < bs) (h : inBlock bs a k) (hj : j < k) :
    (a + j) / bs = a / bs ∧ (a + j) % bs = a % bs + j := by
  unfold inBlock at h
  have e := Nat.div_add_mod a bs
  have hd : (a + j) / bs = a / bs := by
    rw [Nat.mul_comm] at e
    rw [Nat.div_eq_iff h0]
    constructor
    · omega
    · omega
  have e2 := Nat.div_add_mod (a + j) bs
  rw [hd] at e2
  exact ⟨hd, by omega⟩

theorem dvd_sub_add_mod {bs a s d : Nat} (hs : bs ∣ s) (hd : bs ∣ d) (h : s ≤ a) :
    (d + (a - s)) % bs = a % bs := by
  obtain ⟨q, rfl⟩ := hs
  obtain ⟨r, rfl⟩ := hd
  rw [Nat.add_comm, Nat.add_mul_mod_self_left]
  obtain ⟨c, rfl⟩ := Nat.exists_eq_add_of_le h
  rw [show bs * q + c - bs * q = c by omega, Nat.add_comm (bs * q), Nat.add_mul_mod_self_left]

theorem dvd_sub_add_div {bs a b s d : Nat} (h0 : 0 < bs) (hs : bs ∣ s) (hd : bs ∣ d) (h : s ≤ a) (h' : s ≤ b)
    (e : a / bs = b / bs) : (d + (a - s)) / bs = (d + (b - s)) / bs := by
  obtain ⟨q, rfl⟩ := hs
  obtain ⟨r, rfl⟩ := hd
  obtain ⟨c, rfl⟩ := Nat.exists_eq_add_of_le h
  obtain ⟨c', rfl⟩ := Nat.exists_eq_add_of_le h'
  rw [show bs * q + c - bs * q = c by omega, show bs * q + c' - bs * q = c' by omega]
  rw [Nat.mul_add_div h0, Nat.mul_add_div h0] at e
  rw [Nat.mul_add_div h0, Nat.mul_add_div h0]
  omega

/-! ### Well-formed configurations -/

/-- the test whether a mapping holds an address -/
def hit (a : Nat) (m : Mapping) : Bool := decide (m.start ≤ a) && decide (a < m.stop)

theorem hit_iff {a : Nat} {m : Mapping} : hit a m = true ↔ m.start ≤ a ∧ a < m.stop := by simp [hit]

/-- a mapping of interface `i` with block size `bs` -/
structure MapOk (nodes : Nat → Option SNode) (i bs : Nat) (m : Mapping) : Prop where
  lt : m.memif < i
  tgt : ∃ tn, nodes m.memif = some tn ∧ tn.bs = bs
  start : bs ∣ m.start
  stop : bs ∣ m.stop
  dest : bs ∣ m.destOff
  top : m.stop < wordSize
  fits : m.destOff + (m.stop - m.start) < wordSize

/-- an interface -/
structure NodeOk (nodes : Nat → Option SNode) (objs : Nat → Option ArchData.Spec) (i : Nat) (n : SNode) : Prop where
  pow : 2 ^ n.bs.log2 = n.bs
  al : n.bs ∣ n.total
  lt : n.total < wordSize
  obj : ∀ o, n.kind = .obj o → ∃ m, objs o = some m ∧ 2 ^ m.lsb = n.bs ∧ m.size = n.total
  map : ∀ ms, n.kind = .map ms → ∀ m ∈ ms, MapOk nodes i n.bs m

def Cfg (nodes : Nat → Option SNode) (objs : Nat → Option ArchData.Spec) : Prop :=
  ∀ i n, nodes i = some n → NodeOk nodes objs i n

theorem walk_fuel {nodes objs} (hc : Cfg nodes objs) : ∀ (d : Nat) (i a : Nat), i < d →
    walk nodes d i a = walk nodes (i + 1) i a := by
  intro d
  induction d using Nat.strongRecOn with
  | ind d ih =>
    intro i a hi
    match d, hi, ih with
    | d + 1, hi, ih =>
      unfold walk
      cases hn : nodes i with
      | none => rfl
      | some n =>
        dsimp only
        by_cases ha : a < n.total
        · rw [if_pos ha, if_pos ha]
          cases hk : n.kind with
          | obj o => rfl
          | map ms =>
            dsimp only
            cases hf : ms.find? (fun m => decide (m.start ≤ a) && decide (a < m.stop)) with
            | none => rfl
            | some m =>
              dsimp only
              have hm := ((hc i n hn).map ms hk m (List.mem_of_find?_eq_some hf)).lt
              by_cases hid : i = d
              · rw [hid]
              · rw [ih d (by omega) _ _ (by omega), ih i (by omega) _ _ hm]
        · rw [if_neg ha, if_neg ha]

section walk
variable {t : Spec} (hc : Cfg t.nodes t.objs) {i : Nat} {n : SNode} (hn : t.nodes i = some n) {a : Nat}
include hc hn

theorem walk_out (ha : n.total ≤ a) : t.loc i a = none ∧ t.trail i a = [(i, a)] := by
  unfold Spec.loc Spec.trail walk
  rw [hn]
  simp only [if_neg (Nat.not_lt.2 ha)]
  exact ⟨trivial, trivial⟩

theorem walk_obj {o} (hk : n.kind = .obj o) (ha : a < n.total) :
    t.loc i a = some (o, a) ∧ t.trail i a = [(i, a)] := by
  unfold Spec.loc Spec.trail walk
  rw [hn]
  simp only [if_pos ha, hk]
  exact ⟨trivial, trivial⟩

theorem walk_hole {ms} (hk : n.kind = .map ms) (hf : ms.find? (hit a) = none) :
    t.loc i a = none ∧ t.trail i a = [(i, a)] := by
  by_cases ha : a < n.total
  · unfold Spec.loc Spec.trail walk
    rw [hn]
    have hf' : ms.find? (fun m => decide (m.start ≤ a) && decide (a < m.stop)) = none := hf
    simp only [if_pos ha, hk, hf']
    exact ⟨trivial, trivial⟩
  · exact walk_out hc hn (by omega)

theorem walk_map {ms m} (hk : n.kind = .map ms) (ha : a < n.total) (hf : ms.find? (hit a) = some m) :
    t.loc i a = t.loc m.memif (m.destOff + (a - m.start)) ∧
      t.trail i a = (i, a) :: t.trail m.memif (m.destOff + (a - m.start)) := by
  have hm := ((hc i n hn).map ms hk m (List.mem_of_find?_eq_some hf)).lt
  have e := walk_fuel hc i m.memif (m.destOff + (a - m.start)) hm
  unfold Spec.loc Spec.trail
  rw [← e]
  conv => lhs; lhs; unfold walk
  conv => rhs; lhs; unfold walk
  rw [hn]
  have hf' : ms.find? (fun m => decide (m.start ≤ a) && decide (a < m.stop)) = some m := hf
  simp only [if_pos ha, hk, hf']
  exact ⟨trivial, trivial⟩

end walk

theorem find_hit_block {ms : List Mapping} {nodes i bs a b} (h0 : 0 < bs) (h : ∀ m ∈ ms, MapOk nodes i bs m)
    (hb : b / bs = a / bs) : ms.find? (hit b) = ms.find? (hit a) := by
  induction ms with
  | nil => rfl
  | cons m ms ih =>
    have hm := h m (List.mem_cons_self ..)
    have e : hit b m = hit a m := by
      rw [Bool.eq_iff_iff, hit_iff, hit_iff, block_lt_iff h0 hm.stop hb, block_le_iff h0 hm.start hb]
    rw [List.find?_cons, List.find?_cons, e, ih (fun m hm => h m (List.mem_cons_of_mem _ hm))]

/-- addresses of one block denote bytes of one block of one object -/
theorem loc_block {t : Spec} (hc : Cfg t.nodes t.objs) : ∀ (i : Nat) (n : SNode) (a o x : Nat), t.nodes i = some n →
    t.loc i a = some (o, x) →
    x % n.bs = a % n.bs ∧ (∃ m, t.objs o = some m ∧ 2 ^ m.lsb = n.bs ∧ x < m.size ∧ n.bs ∣ m.size) ∧
      a < n.total ∧ ∀ b, b / n.bs = a / n.bs → t.loc i b = some (o, x / n.bs * n.bs + b % n.bs) := by
  intro i
  induction i using Nat.strongRecOn with
  | ind i ih =>
    intro n a o x hn hl
    have ok := hc i n hn
    have h0 := bs_pos ok.pow
    by_cases ha : a < n.total
    · cases hk : n.kind with
      | obj o' =>
        rw [(walk_obj hc hn hk ha).1] at hl
        obtain ⟨rfl, rfl⟩ := Prod.mk.inj (Option.some.inj hl)
        obtain ⟨m, h1, h2, h3⟩ := ok.obj _ hk
        refine ⟨rfl, ⟨m, h1, h2, by rw [h3]; exact ha, by rw [h3]; exact ok.al⟩, ha, ?_⟩
        intro b hb
        rw [(walk_obj hc hn hk ((block_lt_iff h0 ok.al hb).2 ha)).1, ← hb]
        have := Nat.div_add_mod b n.bs
        rw [Nat.mul_comm] at this
        rw [this]
      | map ms =>
        cases hf : ms.find? (hit a) with
        | none => rw [(walk_hole hc hn hk hf).1] at hl; cases hl
        | some m =>
          have mo := ok.map ms hk m (List.mem_of_find?_eq_some hf)
          obtain ⟨tn, ht, hbs⟩ := mo.tgt
          rw [(walk_map hc hn hk ha hf).1] at hl
          have hin := hit_iff.1 (List.find?_some hf)
          obtain ⟨g1, g2, _, g3⟩ := ih m.memif mo.lt tn _ o x ht hl
          rw [hbs] at g1 g2 g3
          refine ⟨by rw [g1]; exact dvd_sub_add_mod mo.start mo.dest hin.1, g2, ha, ?_⟩
          intro b hb
          have hfb := hf
          rw [← find_hit_block h0 (ok.map ms hk) hb] at hfb
          have hinb := hit_iff.1 (List.find?_some hfb)
          rw [(walk_map hc hn hk ((block_lt_iff h0 ok.al hb).2 ha) hfb).1,
            g3 _ (dvd_sub_add_div h0 mo.start mo.dest hinb.1 hin.1 hb), dvd_sub_add_mod mo.start mo.dest hinb.1]
    · rw [(walk_out hc hn (by omega)).1] at hl; cases hl

theorem loc_block_none {t : Spec} (hc : Cfg t.nodes t.objs) {i n a b} (hn : t.nodes i = some n)
    (hb : b / n.bs = a / n.bs) (h : t.loc i a = none) : t.loc i b = none := by
  cases hl : t.loc i b with
  | none => rfl
  | some p =>
    obtain ⟨o, x⟩ := p
    obtain ⟨_, _, _, g⟩ := loc_block hc i n b o x hn hl
    rw [g a hb.symm] at h
    cases h

/-- in a block: the j-th address denotes the j-th byte -/
theorem loc_add {t : Spec} (hc : Cfg t.nodes t.objs) {i n a k j o x} (hn : t.nodes i = some n)
    (hb : inBlock n.bs a k) (hj : j < k) (h : t.loc i a = some (o, x)) : t.loc i (a + j) = some (o, x + j) := by
  have h0 := bs_pos (hc i n hn).pow
  obtain ⟨g1, _, _, g⟩ := loc_block hc i n a o x hn h
  obtain ⟨e1, e2⟩ := inBlock_div h0 hb hj
  rw [g _ e1, e2, ← g1]
  have := Nat.div_add_mod x n.bs
  rw [Nat.mul_comm] at this
  congr 2
  omega

theorem mapped_block {t : Spec} (hc : Cfg t.nodes t.objs) {i n a k} (hn : t.nodes i = some n)
    (hb : inBlock n.bs a k) (hk : 0 < k) : t.mapped i a k = (t.loc i a).isSome := by
  unfold Spec.mapped
  cases h : t.loc i a with
  | none =>
    show _ = false
    rw [Bool.eq_false_iff]
    intro hh
    rw [List.all_eq_true] at hh
    have := hh 0 (List.mem_range.2 hk)
    rw [Nat.add_zero, h] at this
    cases this
  | some p =>
    obtain ⟨o, x⟩ := p
    rw [List.all_eq_true.2]
    · rfl
    · intro j hj
      rw [loc_add hc hn hb (List.mem_range.1 hj) h]; rfl

/-- the bytes of a range in a block are those of the object -/
theorem load_block {t : Spec} (hc : Cfg t.nodes t.objs) {i n a k o x m} (hn : t.nodes i = some n)
    (hb : inBlock n.bs a k) (h : t.loc i a = some (o, x)) (hm : t.objs o = some m) : t.load i a k = m.load x k := by
  unfold Spec.load ArchData.Spec.load
  apply List.map_congr_left
  intro j hj
  rw [Spec.byte, loc_add hc hn hb (List.mem_range.1 hj) h]
  dsimp only
  rw [hm]

end Sparta.MemIf
