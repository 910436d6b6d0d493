import Verif.MemIf.Lemmas

/-!
# Simulation relation, peeks
-/

namespace Sparta.MemIf

open Sparta.MemoryMap (wordSize Mapping)

structure NRep (n : Node) (sn : SNode) : Prop where
  bs : n.bs = sn.bs
  lo : n.lo = 0
  hi : n.hi = sn.total
  obj : ∀ o, n.kind = .obj o → sn.kind = .obj o
  map : ∀ mp, n.kind = .map mp → sn.kind = .map mp.mappings ∧ mp.blockSize = sn.bs ∧
    mp.mask = 2 ^ sn.bs.log2 - 1 ∧ ∃ tr, MemoryMap.Inv mp tr

def ObjRep (om : Option ArchData.AD) (os : Option ArchData.Spec) : Prop :=
  (om = none ∧ os = none) ∨ ∃ m ms, om = some m ∧ os = some ms ∧ ArchData.Rep m ms ∧ 2 ^ ms.lsb ∣ ms.size ∧ 0 < ms.size

def NodeRep (on : Option Node) (os : Option SNode) : Prop :=
  (on = none ∧ os = none) ∨ ∃ n sn, on = some n ∧ os = some sn ∧ NRep n sn

/-- the object and the line behind a direct interface exist -/
def DmiOk (objs : Nat → Option ArchData.AD) (x : Dmi) : Prop :=
  ∃ m, objs x.obj = some m ∧ m.lineSize = x.size ∧ x.size ∣ x.start ∧ x.start < m.size ∧
    m.find (x.start / x.size) ≠ none

structure SRep (s : Sys) (t : Spec) : Prop where
  nObj : s.nObj = t.nObj
  nNode : s.nNode = t.nNode
  reads : s.reads = t.reads
  writes : s.writes = t.writes
  obsR : s.obsR = t.obsR
  obsW : s.obsW = t.obsW
  notes : s.notes = t.notes
  dmis : s.dmis = t.dmis
  objs : ∀ o, ObjRep (s.objs o) (t.objs o)
  objLt : ∀ o, t.objs o ≠ none → o < t.nObj
  nodes : ∀ i, NodeRep (s.nodes i) (t.nodes i)
  nodeLt : ∀ i, t.nodes i ≠ none ↔ i < t.nNode
  cfg : Cfg t.nodes t.objs
  dmi : ∀ x ∈ t.dmis, DmiOk s.objs x

theorem SRep.node {s t} (r : SRep s t) {i sn} (h : t.nodes i = some sn) :
    ∃ n, s.nodes i = some n ∧ NRep n sn := by
  rcases r.nodes i with ⟨_, h2⟩ | ⟨n, sn', h1, h2, h3⟩
  · rw [h2] at h; cases h
  · rw [h2] at h; cases h; exact ⟨n, h1, h3⟩

theorem SRep.obj {s t} (r : SRep s t) {o ms} (h : t.objs o = some ms) :
    ∃ m, s.objs o = some m ∧ ArchData.Rep m ms ∧ 2 ^ ms.lsb ∣ ms.size ∧ 0 < ms.size := by
  rcases r.objs o with ⟨_, h2⟩ | ⟨m, ms', h1, h2, h3⟩
  · rw [h2] at h; cases h
  · rw [h2] at h; cases h; exact ⟨m, h1, h3⟩

theorem NRep.pow {n sn} (h : NRep n sn) (hp : 2 ^ sn.bs.log2 = sn.bs) : 2 ^ n.bs.log2 = n.bs := by
  rw [h.bs]; exact hp

/-- the lookup of the map is a search in the list of mappings -/
theorem findMapping_eq {mp : MemoryMap.Map} {tr} (I : MemoryMap.Inv mp tr) (a : Nat) :
    MemoryMap.findMapping mp a = some (mp.mappings.find? (hit a)) := by
  obtain ⟨res, cnt, h1, _, h2⟩ := MemoryMap.find_iff I a
  rw [MemoryMap.findMapping, h1]
  show some res = _
  congr 1
  cases res with
  | none =>
    symm
    rw [List.find?_eq_none]
    intro m hm hh
    have := (h2 m).2 ⟨hm, hit_iff.1 hh⟩
    cases this
  | some m =>
    have hm := (h2 m).1 rfl
    cases hf : mp.mappings.find? (hit a) with
    | none =>
      rw [List.find?_eq_none] at hf
      exact absurd (hit_iff.2 hm.2) (hf m hm.1)
    | some m' => exact (h2 m').2 ⟨List.mem_of_find?_eq_some hf, hit_iff.1 (List.find?_some hf)⟩

theorem mapAddress_eq {nodes i bs} {m : Mapping} (h : MapOk nodes i bs m) {a : Nat} (ha : m.start ≤ a) (hb : a < m.stop) :
    m.mapAddress a = m.destOff + (a - m.start) := by
  have h1 := h.top
  have h2 := h.fits
  rw [MemoryMap.Mapping.mapAddress, show a + (wordSize - m.start) + m.destOff = (m.destOff + (a - m.start)) + wordSize by omega,
    Nat.add_mod_right]
  exact Nat.mod_eq_of_lt (by omega)

theorem bs_dvd_word {bs t : Nat} (h : 2 ^ bs.log2 = bs) (hd : bs ∣ t) (h0 : 0 < t) (ht : t < wordSize) : bs ∣ wordSize := by
  have h1 : bs ≤ t := Nat.le_of_dvd h0 hd
  have h2 : 2 ^ bs.log2 < 2 ^ 64 := by rw [h]; exact Nat.lt_of_le_of_lt h1 ht
  have h3 : bs.log2 < 64 := (Nat.pow_lt_pow_iff_right (by omega)).1 h2
  rw [← h]
  exact Nat.pow_dvd_pow 2 (by omega)

/-- the end of the block of an address of an interface -/
theorem blockEnd_eq {nodes objs i n sn} (hr : NRep n sn) (ok : NodeOk nodes objs i sn) {a : Nat} (ha : a < sn.total) :
    n.base (w64 (a + n.bs)) = (a / sn.bs + 1) * sn.bs := by
  have h0 := bs_pos ok.pow
  have hw := bs_dvd_word ok.pow ok.al (by omega) ok.lt
  have h1 := block_end_le h0 hw (Nat.lt_trans ha ok.lt)
  have h2 : sn.total + sn.bs ≤ wordSize := by
    obtain ⟨q, hq⟩ := ok.al
    have := block_end_le h0 hw (a := sn.total) ok.lt
    rw [hq, Nat.mul_div_cancel_left _ h0] at this
    rw [hq]
    rw [Nat.add_mul, Nat.mul_comm] at this
    omega
  rw [base_eq (hr.pow ok.pow), hr.bs, w64_of_lt (by omega), Nat.add_div_right _ h0]

/-- the result of a peek in a block -/
def blockRes (t : Spec) (i a k : Nat) : Option (Option Bytes) :=
  some (if (t.loc i a).isSome then some (t.load i a k) else none)

theorem load_map {t : Spec} (hc : Cfg t.nodes t.objs) {i n a k ms m} (hn : t.nodes i = some n) (hk : n.kind = .map ms)
    (ha : a < n.total) (hf : ms.find? (hit a) = some m) (hb : inBlock n.bs a k) :
    t.load i a k = t.load m.memif (m.destOff + (a - m.start)) k := by
  have ok := hc i n hn
  have h0 := bs_pos ok.pow
  have hin := hit_iff.1 (List.find?_some hf)
  unfold Spec.load
  apply List.map_congr_left
  intro j hj
  have hj := List.mem_range.1 hj
  have e := (inBlock_div h0 hb hj).1
  have hf' : ms.find? (hit (a + j)) = some m := by rw [find_hit_block h0 (ok.map ms hk) e]; exact hf
  unfold Spec.byte
  rw [(walk_map hc hn hk ((block_lt_iff h0 ok.al e).2 ha) hf').1,
    show m.destOff + (a + j - m.start) = m.destOff + (a - m.start) + j by omega]

/-- what is needed to follow a mapping -/
theorem map_next {t : Spec} (hc : Cfg t.nodes t.objs) {i n a k ms m} (hn : t.nodes i = some n) (hk : n.kind = .map ms)
    (hf : ms.find? (hit a) = some m) (hb : inBlock n.bs a k) (h : 0 < k) :
    m.memif < i ∧ m.mapAddress a = m.destOff + (a - m.start) ∧
    ∃ tn, t.nodes m.memif = some tn ∧ tn.bs = n.bs ∧ inBlock tn.bs (m.destOff + (a - m.start)) k ∧
      sized (m.destOff + (a - m.start)) k := by
  have ok := hc i n hn
  have h0 := bs_pos ok.pow
  have mo := ok.map ms hk m (List.mem_of_find?_eq_some hf)
  have hin := hit_iff.1 (List.find?_some hf)
  obtain ⟨tn, ht, hbs⟩ := mo.tgt
  refine ⟨mo.lt, mapAddress_eq mo hin.1 hin.2, tn, ht, hbs, ?_, h, ?_⟩
  · rw [hbs]; unfold inBlock; rw [dvd_sub_add_mod mo.start mo.dest hin.1]; exact hb
  · have h1 := block_end_le h0 mo.stop hin.2
    have h2 := mo.fits
    have e := Nat.div_add_mod a n.bs
    rw [Nat.mul_comm] at e
    unfold inBlock at hb
    rw [Nat.add_mul] at h1
    omega

theorem inBlock_le {bs a k t : Nat} (h0 : 0 < bs) (hd : bs ∣ t) (ha : a < t) (hb : inBlock bs a k) : a + k ≤ t := by
  have h1 := block_end_le h0 hd ha
  have e := Nat.div_add_mod a bs
  rw [Nat.mul_comm] at e
  unfold inBlock at hb
  rw [Nat.add_mul] at h1
  omega

/-- a read of an object in a block -/
theorem obj_peek {s t} (r : SRep s t) {i sn o} (hn : t.nodes i = some sn) (hk : sn.kind = .obj o) {a k : Nat}
    (ha : a < sn.total) (hb : inBlock sn.bs a k) :
    ∃ m, s.objs o = some m ∧ m.peek a k = some (t.load i a k) := by
  have ok := r.cfg i sn hn
  obtain ⟨ms, h1, h2, h3⟩ := ok.obj o hk
  obtain ⟨m, h4, rep, h5⟩ := r.obj h1
  have hls : 2 ^ ms.lsb = m.lineSize := rep.ls
  refine ⟨m, h4, ?_⟩
  have hle := ArchData.lineSize_le rep.wf
  rw [← hls, h2] at hle
  have hb' : a % sn.bs + k ≤ sn.bs := hb
  have hk' : k < 2 ^ 63 := by
    have : (2 : Nat) ^ 31 < 2 ^ 63 := Nat.pow_lt_pow_right (by omega) (by omega)
    omega
  rw [ArchData.peek_spec rep a k hk' (Or.inr (Or.inr (by rw [← rep.size, ← hls]; exact Nat.mod_eq_zero_of_dvd h5.1)))]
  have hin : ms.inLine a k = true := by
    unfold ArchData.Spec.inLine
    rw [h2, h3]; simp; exact ⟨ha, hb⟩
  rw [if_pos hin, load_block r.cfg hn hb (walk_obj r.cfg hn hk ha).1 h1]

theorem peek_block {s t} (r : SRep s t) {d : Nat} (ih : ∀ i sn a k, i < d → t.nodes i = some sn → sized a k →
      inBlock sn.bs a k → tryPeek s d i a k = blockRes t i a k)
    {i n sn a k} (hi : i ≤ d) (hn : t.nodes i = some sn) (hr : NRep n sn) (h0 : 0 < k) (ha : a < sn.total)
    (hb : inBlock sn.bs a k) : peek_ s (tryPeek s d) n a k = blockRes t i a k := by
  have ok := r.cfg i sn hn
  unfold peek_ blockRes
  cases hk : n.kind with
  | obj o =>
    have hk' := hr.obj o hk
    obtain ⟨m, h1, h2⟩ := obj_peek r hn hk' ha hb
    dsimp only
    rw [h1, (walk_obj r.cfg hn hk' ha).1]
    dsimp only
    rw [h2]; rfl
  | map mp =>
    obtain ⟨hk', _, _, tr, I⟩ := hr.map mp hk
    dsimp only
    rw [findMapping_eq I]
    cases hf : mp.mappings.find? (hit a) with
    | none => dsimp only; rw [(walk_hole r.cfg hn hk' hf).1]; rfl
    | some m =>
      dsimp only
      obtain ⟨g1, g2, tn, g3, g4, g5, g6⟩ := map_next r.cfg hn hk' hf hb h0
      rw [g2, ih _ tn _ _ (by omega) g3 g6 g5, (walk_map r.cfg hn hk' ha hf).1, load_map r.cfg hn hk' ha hf hb]
      rfl

/-- one iteration of the loop when the access is in a block -/
theorem stop_in_block {bs a k : Nat} (h0 : 0 < bs) (hb : inBlock bs a k) : a + k ≤ (a / bs + 1) * bs := by
  have e := Nat.div_add_mod a bs
  rw [Nat.mul_comm] at e
  unfold inBlock at hb
  rw [Nat.add_mul]
  omega

theorem tryPeek_block {s t} (r : SRep s t) : ∀ (d i : Nat) (sn : SNode) (a k : Nat), i < d → t.nodes i = some sn →
    sized a k → inBlock sn.bs a k → tryPeek s d i a k = blockRes t i a k := by
  intro d
  induction d with
  | zero => intro i sn a k hi; omega
  | succ d ih =>
    intro i sn a k hi hn hs hb
    have ok := r.cfg i sn hn
    have h0 := bs_pos ok.pow
    obtain ⟨n, h1, hr⟩ := r.node hn
    unfold tryPeek
    rw [h1]
    dsimp only
    rw [inWindow_eq hr.lo hs, hr.hi]
    by_cases ha : a < sn.total
    · have hle := inBlock_le h0 ok.al ha hb
      rw [if_pos (decide_eq_true hle)]
      unfold peekLoop
      dsimp only
      rw [blockEnd_eq hr ok ha, w64_of_lt hs.2, if_pos (stop_in_block h0 hb), w64_sub (by omega) hs.2,
        show a + k - a = k by omega]
      exact peek_block r ih (by omega) hn hr hs.1 ha hb
    · have hk := hs.1
      rw [if_neg (by simp; omega), blockRes, (walk_out r.cfg hn (by omega)).1]; rfl

theorem mapped_append {t : Spec} {i a k l : Nat} : t.mapped i a (k + l) = (t.mapped i a k && t.mapped i (a + k) l) := by
  unfold Spec.mapped
  rw [List.range_add, List.all_append, List.all_map]
  congr 2
  funext j
  simp only [Function.comp]
  rw [Nat.add_assoc]

theorem load_append {t : Spec} {i a k l : Nat} : t.load i a (k + l) = t.load i a k ++ t.load i (a + k) l := by
  unfold Spec.load
  rw [List.range_add, List.map_append, List.map_map]
  congr 1
  apply List.map_congr_left
  intro j _
  simp only [Function.comp]
  rw [Nat.add_assoc]

theorem peekLoop_spec {t : Spec} (hc : Cfg t.nodes t.objs) {i n sn} (hn : t.nodes i = some sn) (hr : NRep n sn)
    (f : Nat → Nat → Option (Option Bytes))
    (hf : ∀ a k, 0 < k → a < sn.total → inBlock sn.bs a k → f a k = blockRes t i a k) :
    ∀ (fuel a stop : Nat), a < stop → stop ≤ sn.total → stop - a < fuel →
      peekLoop n f fuel a stop = some (t.tryPeek i a (stop - a)) := by
  have ok := hc i sn hn
  have h0 := bs_pos ok.pow
  intro fuel
  induction fuel with
  | zero => intro a stop _ _ h; omega
  | succ fuel ih =>
    intro a stop h1 h2 h3
    have hlt := ok.lt
    have ha : a < sn.total := by omega
    unfold peekLoop
    dsimp only
    rw [blockEnd_eq hr ok ha]
    have e := Nat.div_add_mod a sn.bs
    rw [Nat.mul_comm] at e
    have hm := Nat.mod_lt a h0
    have he : (a / sn.bs + 1) * sn.bs = a / sn.bs * sn.bs + sn.bs := by rw [Nat.add_mul]; omega
    by_cases hs : (a / sn.bs + 1) * sn.bs ≥ stop
    · rw [if_pos hs, w64_sub (by omega) (by omega)]
      have hb : inBlock sn.bs a (stop - a) := by unfold inBlock; omega
      rw [hf _ _ (by omega) ha hb, blockRes, Spec.tryPeek, mapped_block hc hn hb (by omega)]
    · rw [if_neg hs, w64_sub (by omega) (by omega)]
      have hb : inBlock sn.bs a ((a / sn.bs + 1) * sn.bs - a) := by unfold inBlock; omega
      have hpos : 0 < (a / sn.bs + 1) * sn.bs - a := by omega
      rw [hf _ _ hpos ha hb, blockRes]
      rw [ih _ stop (by omega) h2 (by omega)]
      have hsplit : stop - a = ((a / sn.bs + 1) * sn.bs - a) + (stop - (a / sn.bs + 1) * sn.bs) := by omega
      have hend : a + ((a / sn.bs + 1) * sn.bs - a) = (a / sn.bs + 1) * sn.bs := by omega
      unfold Spec.tryPeek
      rw [hsplit, mapped_append, load_append, hend, mapped_block hc hn hb hpos]
      cases (t.loc i a).isSome with
      | false => rfl
      | true =>
        simp only [if_true, Bool.true_and]
        cases t.mapped i ((a / sn.bs + 1) * sn.bs) (stop - (a / sn.bs + 1) * sn.bs) <;> rfl

theorem mapped_out {t : Spec} (hc : Cfg t.nodes t.objs) {i sn a k} (hn : t.nodes i = some sn) (h0 : 0 < k)
    (h : sn.total < a + k) : t.mapped i a k = false := by
  unfold Spec.mapped
  rw [Bool.eq_false_iff]
  intro hh
  rw [List.all_eq_true] at hh
  have := hh (k - 1) (List.mem_range.2 (by omega))
  rw [(walk_out hc hn (by omega)).1] at this
  cases this

/-- `tryPeek` -/
theorem tryPeek_spec {s t} (r : SRep s t) {d i a k : Nat} (hd : i < d) (hi : i < t.nNode) (hs : sized a k) :
    tryPeek s d i a k = some (t.tryPeek i a k) := by
  obtain ⟨sn, hn⟩ := Option.ne_none_iff_exists'.1 ((r.nodeLt i).2 hi)
  have ok := r.cfg i sn hn
  obtain ⟨n, h1, hr⟩ := r.node hn
  cases d with
  | zero => omega
  | succ d =>
    unfold tryPeek
    rw [h1]
    dsimp only
    rw [inWindow_eq hr.lo hs, hr.hi]
    have hk := hs.1
    by_cases ha : a + k ≤ sn.total
    · rw [if_pos (decide_eq_true ha), w64_of_lt hs.2,
        peekLoop_spec r.cfg hn hr _ (fun a k h2 h3 h4 => peek_block r (tryPeek_block r d) (by omega) hn hr h2 h3 h4)
          (k + 1) a (a + k) (by omega) ha (by omega), show a + k - a = k by omega]
    · rw [if_neg (by simpa using ha), Spec.tryPeek, mapped_out r.cfg hn hk (by omega)]; rfl

end Sparta.MemIf
