import Verif.Cache.SimpleLemmas
/-! Properties C44-C48 and C65-C68: the cache library. -/
namespace Sparta.Cache

/-! ### C44: tree PLRU -/

/-- the touched way becomes most recently used, and is not the next victim when there are at least two ways -/
theorem C44_touchMRU (L w : Nat) (bits : Nat → Bool) (hw : w < 2 ^ L) :
    (plru L).mru ((plru L).touchMRU bits w) = w ∧ (1 ≤ L → (plru L).lru ((plru L).touchMRU bits w) ≠ w) := by
  refine ⟨touch_find not not (by simp) L w bits hw, fun hL he => ?_⟩
  have h := (descend_way id (ascend not L (w + 2 ^ L) bits) L w hw).1 he 0 (by omega)
  rw [touch_bit _ _ _ _ _ _ (by omega) hw hw, if_pos rfl] at h
  simp at h

/-- a way touched as LRU is the next victim -/
theorem C44_touchLRU (L w : Nat) (bits : Nat → Bool) (hw : w < 2 ^ L) :
    (plru L).lru ((plru L).touchLRU bits w) = w := touch_find id id (by simp) L w bits hw

/-- the ways offered exist, in any state -/
theorem C44_legal (L : Nat) (bits : Nat → Bool) : (plru L).lru bits < 2 ^ L ∧ (plru L).mru bits < 2 ^ L := by
  have h1 := descend_leaf id bits L
  have h2 := descend_leaf not bits L
  constructor
  · show descend id bits L 1 - 2 ^ L < 2 ^ L; omega
  · show descend not bits L 1 - 2 ^ L < 2 ^ L; omega

/-- a way just touched only becomes the victim after `L` different ways (of `2 ^ L`) were touched -/
theorem C44_protected (L w : Nat) (bits : Nat → Bool) (vs : List Nat) (hw : w < 2 ^ L) (hvs : ∀ v ∈ vs, v < 2 ^ L)
    (h : (plru L).lru (vs.foldl (plru L).touchMRU ((plru L).touchMRU bits w)) = w) :
    ∃ ds : List Nat, ds.Nodup ∧ ds.length = L ∧ ∀ v ∈ ds, v ∈ vs ∧ v ≠ w := by
  have hb := (descend_way id _ L w hw).1 h
  have key : ∀ j, j < L → ∃ v ∈ vs, (v + 2 ^ L) / 2 ^ (j + 1) = (w + 2 ^ L) / 2 ^ (j + 1) ∧
      (v + 2 ^ L) / 2 ^ j ≠ (w + 2 ^ L) / 2 ^ j := by
    intro j hj
    refine touches_bit L w j vs _ hj hw hvs ?_ (hb j hj)
    show ascend not L (w + 2 ^ L) bits _ ≠ _
    rw [touch_bit _ _ _ _ _ _ hj hw hw, if_pos rfl]
    simp
  let f : Nat → Nat := fun j => if hj : j < L then Classical.choose (key j hj) else 0
  have hf : ∀ j, j < L → f j ∈ vs ∧ (f j + 2 ^ L) / 2 ^ (j + 1) = (w + 2 ^ L) / 2 ^ (j + 1) ∧
      (f j + 2 ^ L) / 2 ^ j ≠ (w + 2 ^ L) / 2 ^ j := by
    intro j hj
    have := Classical.choose_spec (key j hj)
    simp only [f, dif_pos hj]
    exact this
  have up : ∀ j j', j < j' → j < L → (f j + 2 ^ L) / 2 ^ j' = (w + 2 ^ L) / 2 ^ j' := by
    intro j j' hlt hj
    have h1 := (hf j hj).2.1
    have e : 2 ^ j' = 2 ^ (j + 1) * 2 ^ (j' - (j + 1)) := by rw [← Nat.pow_add]; congr 1; omega
    rw [e, ← Nat.div_div_eq_div_mul, ← Nat.div_div_eq_div_mul, h1]
  refine ⟨(List.range L).map f, ?_, by simp, ?_⟩
  · refine List.pairwise_map.2 (List.Pairwise.imp_of_mem ?_ (List.pairwise_lt_range (n := L)))
    intro a b ha hb hab he
    have hb' : b < L := by simpa using hb
    apply (hf b hb').2.2
    rw [← he]
    exact up a b hab (by omega)
  · intro v hv
    obtain ⟨j, hj, rfl⟩ := List.mem_map.1 hv
    have hj' : j < L := by simpa using hj
    exact ⟨(hf j hj').1, fun he => (hf j hj').2.2 (by rw [he])⟩

/-- four ways: after way 2 was touched two more touches make it the victim again -/
example : (plru 2).lru ([3, 0].foldl (plru 2).touchMRU ((plru 2).touchMRU (fun _ => false) 2)) = 2 := by decide
/-- and so the bound is reached -/
example : (plru 2).lru ((plru 2).touchMRU ((plru 2).touchMRU (fun _ => false) 2) 0) = 3 := by decide

/-- the display string lists every way once, the most recently used way first and the victim last -/
theorem C44_display (L : Nat) (bits : Nat → Bool) :
    (plruDisplay L bits).Nodup ∧ (∀ w < 2 ^ L, w ∈ plruDisplay L bits) ∧ (plruDisplay L bits).length = 2 ^ L ∧
    (plruDisplay L bits).head? = some ((plru L).mru bits) ∧ (plruDisplay L bits).getLast? = some ((plru L).lru bits) := by
  have hlen : (plruDisplay L bits).length = 2 ^ L := by simp [plruDisplay]
  have range : ∀ r, 2 ^ L ≤ rankDescend bits r L 1 ∧ rankDescend bits r L 1 < 2 ^ L + 2 ^ L := by
    intro r
    have h := (rankDescend_spec bits r L 1).1
    have hp := Nat.two_pow_pos L
    have h1 := Nat.div_mul_le_self (rankDescend bits r L 1) (2 ^ L)
    have h2 := Nat.lt_div_mul_add hp (a := rankDescend bits r L 1)
    rw [h] at h1 h2
    omega
  have hnd : (plruDisplay L bits).Nodup := by
    unfold plruDisplay
    refine List.pairwise_map.2 (List.Pairwise.imp_of_mem ?_ (nodup_reverse List.nodup_range))
    intro a b ha hb hab he
    have ha' : a < 2 ^ L := by simpa using ha
    have hb' : b < 2 ^ L := by simpa using hb
    have ra := range a
    have rb := range b
    have he' : rankDescend bits a L 1 = rankDescend bits b L 1 := by omega
    apply hab
    apply eq_of_bits ha' hb'
    intro j hj
    rw [(rankDescend_spec bits a L 1).2 j hj, (rankDescend_spec bits b L 1).2 j hj, he']
  have hr : ∀ x ∈ plruDisplay L bits, x < 2 ^ L := by
    intro x hx
    obtain ⟨r, _, rfl⟩ := List.mem_map.1 hx
    have := range r
    omega
  refine ⟨hnd, full_of_nodup hnd hlen hr, hlen, ?_, ?_⟩
  · have e : ∀ i m, i ≤ L → rankDescend bits (2 ^ L - 1) i m = descend not bits i m := by
      intro i
      induction i with
      | zero => intro m _; rfl
      | succ i ih =>
        intro m hi
        unfold rankDescend descend
        have hb : ((2 ^ L - 1) >>> i) % 2 = 1 := by
          have := Nat.testBit_two_pow_sub_one L i
          rw [Nat.testBit_eq_decide_div_mod_eq] at this
          rw [Nat.shiftRight_eq_div_pow]
          simpa [show i < L by omega] using this
        rw [ih _ (by omega), hb]
        simp
    unfold plruDisplay
    rw [List.head?_map, List.head?_reverse, List.getLast?_range, if_neg (by have := Nat.two_pow_pos L; omega)]
    simp only [Option.map_some]
    rw [e L 1 (Nat.le_refl _)]; rfl
  · have e : ∀ i m, rankDescend bits 0 i m = descend id bits i m := by
      intro i
      induction i with
      | zero => intro m; rfl
      | succ i ih =>
        intro m
        unfold rankDescend descend
        rw [ih]; simp
    unfold plruDisplay
    rw [List.getLast?_map, List.getLast?_reverse, List.head?_range, if_neg (by have := Nat.two_pow_pos L; omega)]
    simp only [Option.map_some]
    rw [e L 1]; rfl

example : plruDisplay 2 ((plru 2).touchMRU (fun _ => false) 1) = [1, 0, 3, 2] := by decide

/-! ### C45: true LRU -/

/-- the victim is older than every other way, the MRU way newer than every other way, and the recency order is a
permutation of the ways -/
theorem C45_lru_oldest (n : Nat) (hn : 0 < n) (h : List Touch) (hw : ∀ t ∈ h, t.way < n) :
    (trueLru n).lru (touchAll (trueLru n) h) < n ∧
    (∀ w < n, w ≠ (trueLru n).lru (touchAll (trueLru n) h) → Older h ((trueLru n).lru (touchAll (trueLru n) h)) w) ∧
    (∀ w < n, w ≠ (trueLru n).mru (touchAll (trueLru n) h) → Older h w ((trueLru n).mru (touchAll (trueLru n) h))) ∧
    (touchAll (trueLru n) h).Nodup ∧ (∀ w, w ∈ touchAll (trueLru n) h ↔ w < n) := by
  obtain ⟨h1, h2⟩ := lru_inv n h hw
  have hm : ∀ w, w ∈ touchAll (trueLru n) h ↔ w < n := fun w => by rw [h2.mem_iff]; simp
  have hnd : (touchAll (trueLru n) h).Nodup := h2.symm.nodup List.nodup_range
  generalize touchAll (trueLru n) h = l at h1 hm hnd
  have hne : l ≠ [] := fun he => by have := (hm 0).2 hn; simp [he] at this
  obtain ⟨x, xs, rfl⟩ := List.exists_cons_of_ne_nil hne
  refine ⟨(hm x).1 (by simp), ?_, ?_, hnd, hm⟩
  · intro w hw hx
    have hin := (hm w).2 hw
    rcases List.mem_cons.1 hin with e | e
    · exact absurd e hx
    · exact (List.pairwise_cons.1 h1).1 w e
  · intro w hw hx
    have hin := (hm w).2 hw
    have el : (trueLru n).mru (x :: xs) = (x :: xs).getLast hne := by
      show (x :: xs).getLastD 0 = _
      rw [List.getLastD_eq_getLast?, List.getLast?_eq_some_getLast hne]; rfl
    rw [el] at hx ⊢
    rw [← List.dropLast_concat_getLast hne] at hin h1
    rcases List.mem_append.1 hin with e | e
    · exact (List.pairwise_append.1 h1).2.2 w e _ (by simp)
    · exact absurd (by simpa using e) hx

/-- three ways, touched 0, 2, 0 as MRU: way 1, never touched, is the victim; then 2 -/
example : (trueLru 3).lru (touchAll (trueLru 3) [⟨0, true⟩, ⟨2, true⟩, ⟨0, true⟩]) = 1 ∧
    (trueLru 3).mru (touchAll (trueLru 3) [⟨0, true⟩, ⟨2, true⟩, ⟨0, true⟩]) = 0 ∧
    (trueLru 3).lru (touchAll (trueLru 3) [⟨1, true⟩, ⟨0, true⟩, ⟨2, true⟩, ⟨0, true⟩]) = 2 ∧
    (trueLru 3).lru (touchAll (trueLru 3) [⟨1, false⟩, ⟨0, true⟩, ⟨2, true⟩, ⟨1, true⟩]) = 1 := by decide

/-- the policies fulfil what the properties of the cache ask of a policy -/
theorem C46_policies (L n : Nat) (hn : 0 < n) : (plru L).Legal (2 ^ L) ∧ (trueLru n).Legal n :=
  ⟨plru_legal L, trueLru_legal n hn⟩

/-! ### C46: contents -/

/-- a lookup hits exactly when the block was filled and neither replaced nor invalidated since -/
theorem C46_hit_iff {σ} {g : Geo} {p : Policy σ} (hg : g.Ok) (hp : p.Legal g.nWays) {u : User σ} (h : Reach g p u)
    {a : Nat} (ha : g.Proper a) : u.c.isHit g a = true ↔ g.block a ∈ held u.trace := by
  obtain ⟨P, h0, h1, h2, h3⟩ := hp
  have I := h.inv hg.nice h0 h1 h2 h3
  rw [Cache.isHit_iff hg.nice I.lines ha, I.holds]

/-- the line found is valid and holds the block of the address; no other way of the set does -/
theorem C46_unique {σ} {g : Geo} {p : Policy σ} (hg : g.Ok) (hp : p.Legal g.nWays) {u : User σ} (h : Reach g p u)
    {a : Nat} (ha : g.Proper a) : ∀ w < g.nWays, u.c.find g a = some w ↔
      ((u.c.sets (g.idx a)).ways w).valid = true ∧ ((u.c.sets (g.idx a)).ways w).addr = g.block a := by
  obtain ⟨P, h0, h1, h2, h3⟩ := hp
  have I := h.inv hg.nice h0 h1 h2 h3
  intro w hw
  constructor
  · intro hf
    exact (Cache.find_some hg.nice I.lines ha hf).2
  · rintro ⟨hv, hadr⟩
    cases hf : u.c.find g a with
    | none =>
      have : u.c.isHit g a = true := (Cache.isHit_iff hg.nice I.lines ha).2 ⟨_, w, hw, hv, hadr⟩
      simp [Cache.isHit, hf] at this
    | some w' =>
      obtain ⟨e1, e2, e3⟩ := Cache.find_some hg.nice I.lines ha hf
      rw [(I.lines.addr_inj hg.nice e1 hw e2 hv (e3.trans hadr.symm)).2]

/-- no block is held twice, in any sets and ways -/
theorem C46_no_duplicate {σ} {g : Geo} {p : Policy σ} (hg : g.Ok) (hp : p.Legal g.nWays) {u : User σ} (h : Reach g p u)
    {s w s' w' : Nat} (hw : w < g.nWays) (hw' : w' < g.nWays) (hv : ((u.c.sets s).ways w).valid = true)
    (hv' : ((u.c.sets s').ways w').valid = true)
    (he : ((u.c.sets s).ways w).addr = ((u.c.sets s').ways w').addr) : s = s' ∧ w = w' := by
  obtain ⟨P, h0, h1, h2, h3⟩ := hp
  exact (h.inv hg.nice h0 h1 h2 h3).lines.addr_inj hg.nice hw hw' hv hv' he

def exGeo : Geo := ⟨64, 64, 2, 2⟩
theorem exGeo_ok : exGeo.Ok := ⟨6, 6, 1, by decide⟩
def exLine : Line := ⟨false, false, false, 0, 0, fun _ => 0⟩

/-- two sets of two ways: the third block of a set replaces the least recently used one -/
example : ∃ u, Reach exGeo (plru 1) u ∧ held u.trace = [256, 128] ∧ u.c.isHit exGeo 130 = true ∧ u.c.isHit exGeo 0 = false := by
  refine ⟨_, .step (.fill 256 .lru) (.step (.fill 129 .lru) (.step (.fill 5 .lru) (.init exLine rfl) ?_) ?_) ?_, ?_⟩
  · exact ⟨by unfold Geo.Proper; decide, by decide +kernel, by decide⟩
  · exact ⟨by unfold Geo.Proper; decide, by decide +kernel, by decide⟩
  · exact ⟨by unfold Geo.Proper; decide, by decide +kernel, by decide⟩
  · decide +kernel

/-! ### C47: address decoding -/

/-- tag, index and offset determine the address, when the stride is not larger than the line -/
theorem C47_unique_partial {g : Geo} {l s k : Nat} (h1 : g.line = 2 ^ l) (h2 : g.stride = 2 ^ s) (h3 : g.nSets = 2 ^ k)
    (hl : l < 64) (hk : s + k < 64) (hs : g.stride ≤ g.line) {a b : Nat} (ht : g.tag a = g.tag b)
    (hi : g.idx a = g.idx b) (ho : g.off a = g.off b) : a = b := by
  have D : g.Dims l s k := ⟨h1, h2, h3, hk, hl⟩
  have hd := D.item ht hi
  rw [D.off, D.off] at ho
  have hsl : s ≤ l := by
    rw [h1, h2] at hs
    exact (Nat.pow_le_pow_iff_right (by omega)).1 hs
  have hm : a % 2 ^ s = b % 2 ^ s := by rw [← mod_pow_mod hsl, ho, mod_pow_mod hsl]
  rw [← Nat.div_add_mod a (2 ^ s), hd, hm, Nat.div_add_mod]

/-- in general they determine the addresses that belong to items -/
theorem C47_unique_proper_partial {g : Geo} (hg : g.Ok) {a b : Nat} (ha : g.Proper a) (hb : g.Proper b)
    (ht : g.tag a = g.tag b) (hi : g.idx a = g.idx b) (ho : g.off a = g.off b) : a = b := by
  have N := hg.nice
  have := (N.key a b ha hb).2 ⟨ht, hi⟩
  rw [← (N.split a ha).1, ← (N.split b hb).1, this, ho]

/-- the index is below the number of sets; block and offset take the address apart -/
theorem C47_range {g : Geo} (hn : 0 < g.nSets) (a : Nat) : g.idx a < g.nSets := by
  unfold Geo.idx
  exact Nat.lt_of_le_of_lt Nat.and_le_right (by omega)

theorem C47_split {g : Geo} (hg : g.Ok) {a : Nat} (ha : a < 2 ^ 64) :
    g.block a + g.off a = a ∧ g.off a < g.line ∧ g.block a % g.line = 0 := by
  obtain ⟨l, s, k, D, _⟩ := hg.dims
  rw [D.block ha, D.off, D.line]
  have := Nat.mod_le a (2 ^ l)
  refine ⟨by omega, Nat.mod_lt _ (Nat.two_pow_pos l), ?_⟩
  have e := Nat.div_add_mod a (2 ^ l)
  rw [show a - a % 2 ^ l = 2 ^ l * (a / 2 ^ l) by omega]
  exact Nat.mul_mod_right _ _

example : exGeo.tag 0x12345 = 0x246 ∧ exGeo.idx 0x12345 = 1 ∧ exGeo.off 0x12345 = 5 ∧ exGeo.block 0x12345 = 0x12340 := by
  decide

/-- a stride above the line size, as the constructor allows, maps different blocks to the same tag and index: a lookup of
address 64 hits the line with block 0 -/
theorem C47_stride_violated : ∃ g : Geo, g.line = 2 ^ 6 ∧ g.stride = 2 ^ 7 ∧ g.nSets = 2 ^ 1 ∧
    g.tag 0 = g.tag 64 ∧ g.idx 0 = g.idx 64 ∧ g.off 0 = g.off 64 ∧ g.block 0 ≠ g.block 64 :=
  ⟨⟨64, 128, 2, 1⟩, by decide⟩

/-- the number of sets is not required to be a power of two; with three sets (192 bytes, one way) again two blocks
share tag and index -/
theorem C47_sets_violated : ∃ g : Geo, g = Geo.ofSize 192 64 64 1 ∧ g.nSets = 3 ∧
    g.tag 0 = g.tag 64 ∧ g.idx 0 = g.idx 64 ∧ g.off 0 = g.off 64 ∧ g.block 0 ≠ g.block 64 :=
  ⟨_, rfl, by decide⟩

/-! ### C48: non-temporal fills -/

/-- a non-temporal fill takes way 0 if its line is not non-temporal, else way 1 if that line is not -/
theorem C48_free_way_partial {σ} (g : Geo) (p : Policy σ) (c : Cache σ) (a : Nat) :
    (((c.sets (g.idx a)).ways 0).nt = false → c.victim g p a (.nt true) = 0) ∧
    (((c.sets (g.idx a)).ways 0).nt = true → ((c.sets (g.idx a)).ways 1).nt = false → c.victim g p a (.nt true) = 1) ∧
    c.victim g p a (.nt true) < 2 := by
  unfold Cache.victim CSet.ntVictim
  refine ⟨fun h => by simp [h], fun h h' => by simp [h, h'], ?_⟩
  simp only
  split
  · omega
  · split
    · omega
    · split <;> omega

/-- with both ways non-temporal the way offered is the one filled last: blocks 0 and 128 are filled in that order, and
the third fill replaces 128 -/
theorem C48_older_violated : ∃ u, Reach exGeo (plru 1) u ∧ u.trace = [.fill 0 none, .fill 128 none, .fill 256 (some 128)] := by
  refine ⟨_, .step (.fill 256 (.nt true)) (.step (.fill 128 (.nt true)) (.step (.fill 0 (.nt true)) (.init exLine rfl) ?_) ?_) ?_, ?_⟩
  · exact ⟨by unfold Geo.Proper; decide, by decide +kernel, by decide⟩
  · exact ⟨by unfold Geo.Proper; decide, by decide +kernel, by decide⟩
  · exact ⟨by unfold Geo.Proper; decide, by decide +kernel, by decide⟩
  · decide +kernel

/-- a normal fill is not affected by non-temporal lines -/
theorem C48_normal {σ} (g : Geo) (p : Policy σ) (c : Cache σ) (a : Nat) : c.victim g p a (.nt false) = c.victim g p a .lru := rfl

/-! ### C65: `SimpleCache` is transparent -/

theorem simple_rep {σ} {g : Geo} {p : Policy σ} (hg : g.Ok) (hp : p.Legal g.nWays) (d : Line) (hd : d.valid = false)
    (thr al : Bool) (m : Nat → Nat) (os : List SOp) (ho : legalOps flatStep (Within g) m os) :
    ∃ P : σ → Prop, (∀ s, P s → p.lru s < g.nWays) ∧
    SRep g P (runOps (Simple.step g p) ⟨Cache.init p d, thr, al, m⟩ os).1 (runOps flatStep m os).1 ∧
    (runOps (Simple.step g p) ⟨Cache.init p d, thr, al, m⟩ os).2 = (runOps flatStep m os).2 := by
  obtain ⟨P, h0, h1, h2, h3⟩ := hp
  refine ⟨P, h3, runOps_simulation_legal (Simple.step g p) flatStep (Within g) (SRep g P)
    (fun s t o r hl => SRep.step hg.nice h3 h1 r o hl) _ m ?_ os ho⟩
  have hv : ∀ i w, ((Cache.init p d).at' i w).valid = false := fun _ _ => hd
  refine ⟨fun _ => h0, ⟨?_, ?_⟩, ?_, ?_, ?_⟩
  · intro i w _ h; rw [hv] at h; cases h
  · intro i w w' _ _ h; rw [hv] at h; cases h
  · intro i w _ h; exact absurd ((hv i w).symm.trans h) (by decide)
  · intro _ _ _; rfl
  · intro i w _ h; exact absurd ((hv i w).symm.trans h) (by decide)

/-- Whatever the sizes, the policy, the write modes and the initial memory: reads through the cache return what a plain
memory would return. -/
theorem C65_transparent {σ} {g : Geo} {p : Policy σ} (hg : g.Ok) (hp : p.Legal g.nWays) (d : Line) (hd : d.valid = false)
    (thr al : Bool) (m : Nat → Nat) (os : List SOp) (ho : legalOps flatStep (Within g) m os) :
    (runOps (Simple.step g p) ⟨Cache.init p d, thr, al, m⟩ os).2 = (runOps flatStep m os).2 := by
  obtain ⟨P, _, _, h⟩ := simple_rep hg hp d hd thr al m os ho
  exact h

/-- the memory behind the cache is up to date for every address that is not cached or whose line is not modified -/
theorem C65_memory {σ} {g : Geo} {p : Policy σ} (hg : g.Ok) (hp : p.Legal g.nWays) (d : Line) (hd : d.valid = false)
    (thr al : Bool) (m : Nat → Nat) (os : List SOp) (ho : legalOps flatStep (Within g) m os) (s : Simple σ)
    (hs : s = (runOps (Simple.step g p) ⟨Cache.init p d, thr, al, m⟩ os).1) (x : Nat) (hx : g.Proper x)
    (h : ∀ w, s.c.find g x = some w → ((s.c.sets (g.idx x)).ways w).modified = false) :
    s.mem x = (runOps flatStep m os).1 x := by
  obtain ⟨P, _, R, _⟩ := simple_rep hg hp d hd thr al m os ho
  rw [← hs] at R
  cases hf : s.c.find g x with
  | none => exact R.uncached x hx (R.find_none hg.nice hx hf)
  | some w =>
    obtain ⟨h1, h2, h3⟩ := Cache.find_some hg.nice R.lines hx hf
    obtain ⟨x1, x2, _⟩ := hg.nice.split x hx
    have := R.clean _ w h1 h2 (h w hf) (g.off x) x2
    rwa [h3, x1] at this

/-- a write is cast out and read back: three blocks compete for the one way of a set -/
example : (runOps (Simple.step ⟨4, 4, 2, 1⟩ (plru 0)) ⟨Cache.init (plru 0) exLine, false, true, fun a => a⟩
    [.write 1 [77, 78], .read 8 4, .read 0 4, .read 17 2]).2 =
    [none, some [8, 9, 10, 11], some [0, 77, 78, 3], some [17, 18]] := by decide +kernel

example : legalOps flatStep (Within ⟨4, 4, 2, 1⟩) (fun a => a) [.write 1 [77, 78], .read 8 4, .read 0 4, .read 17 2] := by
  simp [legalOps, Within, Geo.Proper]

/-- when a write miss does not allocate nothing keeps the access inside its line: the write goes to memory although the
next line is cached, and a read returns the old data -/
theorem C65_crossing_violated : (runOps (Simple.step ⟨4, 4, 2, 1⟩ (plru 0)) ⟨Cache.init (plru 0) exLine, false, false, fun a => a⟩
    [.read 4 4, .write 3 [77, 78], .read 4 4]).2 = [some [4, 5, 6, 7], none, some [4, 5, 6, 7]] := by decide +kernel

/-! ### C66: invalidation and castouts of `SimpleCache` -/

/-- after `invalidateLine` the block misses and every other block hits exactly as before; it fails exactly on a miss -/
theorem C66_invalidateLine {σ} {g : Geo} {p : Policy σ} (hg : g.Ok) (hp : p.Legal g.nWays) (d : Line) (hd : d.valid = false)
    (thr al : Bool) (m : Nat → Nat) (os : List SOp) (ho : legalOps flatStep (Within g) m os) (s : Simple σ)
    (hs : s = (runOps (Simple.step g p) ⟨Cache.init p d, thr, al, m⟩ os).1) {a : Nat} (ha : g.Proper a) :
    (s.invalidateLine g p a = none ↔ s.c.isHit g a = false) ∧
    ∀ s', s.invalidateLine g p a = some s' → s'.mem = s.mem ∧ ∀ b, g.Proper b →
      (s'.c.isHit g b = true ↔ s.c.isHit g b = true ∧ g.block b ≠ g.block a) := by
  obtain ⟨P, _, R, _⟩ := simple_rep hg hp d hd thr al m os ho
  rw [← hs] at R
  have N := hg.nice
  unfold Simple.invalidateLine Cache.isHit
  cases hf : s.c.find g a with
  | none => simp
  | some w =>
    refine ⟨by simp, ?_⟩
    intro s' he
    obtain ⟨h1, h2, h3⟩ := Cache.find_some N R.lines ha hf
    simp only [Option.some.injEq] at he
    have e1 : s'.c.at' = setAt s.c.at' (g.idx a) w { s.c.at' (g.idx a) w with valid := false } := by
      rw [← he]; exact (at_touchLRU _ _ _ _).trans (at_setLine _ _ _ _)
    refine ⟨by rw [← he], ?_⟩
    intro b hb
    have I' : LInv g s'.c.at' := by rw [e1]; exact R.lines.drop N _ _ _ rfl
    have k1 := Cache.isHit_iff N I' hb
    have k2 := Cache.isHit_iff N R.lines hb
    unfold Cache.isHit at k1 k2
    rw [k1, k2, e1, R.lines.has_drop N _ w h1 _ rfl h2, h3]

/-- the way freed by `invalidateLine` is the next one used in its set: a following miss replaces nothing -/
theorem C66_reuse {σ} {g : Geo} {p : Policy σ} (hg : g.Ok) (hp : p.Legal g.nWays)
    (hlru : ∀ s w, w < g.nWays → p.lru (p.touchLRU s w) = w) (d : Line) (hd : d.valid = false)
    (thr al : Bool) (m : Nat → Nat) (os : List SOp) (ho : legalOps flatStep (Within g) m os) (s : Simple σ)
    (hs : s = (runOps (Simple.step g p) ⟨Cache.init p d, thr, al, m⟩ os).1) {a : Nat} (ha : g.Proper a)
    (s' : Simple σ) (h : s.invalidateLine g p a = some s') (b : Nat) (hb : g.idx b = g.idx a) :
    (s'.isHitWithCastout g p b).2 = none := by
  obtain ⟨P, _, R, _⟩ := simple_rep hg hp d hd thr al m os ho
  rw [← hs] at R
  have N := hg.nice
  unfold Simple.invalidateLine at h
  cases hf : s.c.find g a with
  | none => simp [hf] at h
  | some w =>
    obtain ⟨h1, h2, h3⟩ := Cache.find_some N R.lines ha hf
    have hidx : g.idx ((s.c.sets (g.idx a)).ways w).addr = g.idx a := (R.lines.line _ w h1 h2).2.2.2
    simp only [hf, Option.some.injEq, hidx] at h
    subst h
    unfold Simple.isHitWithCastout
    split
    · rfl
    · simp only [hb, Cache.touchLRU, Cache.setLine, upd_same, hlru _ _ h1]
      rfl

/-- both policies meet the hypothesis of `C66_reuse` -/
example : ∀ s w, w < 2 ^ 3 → (plru 3).lru ((plru 3).touchLRU s w) = w := fun s w h => C44_touchLRU 3 w s h
example (n : Nat) : ∀ s w, w < n → (trueLru n).lru ((trueLru n).touchLRU s w) = w := fun _ _ _ => rfl

/-- `isHitWithCastout` predicts what a read does: on a miss the block reported is the one that is not there any more -/
theorem C66_castout {σ} {g : Geo} {p : Policy σ} (hg : g.Ok) (hp : p.Legal g.nWays) (d : Line) (hd : d.valid = false)
    (thr al : Bool) (m : Nat → Nat) (os : List SOp) (ho : legalOps flatStep (Within g) m os) (s : Simple σ)
    (hs : s = (runOps (Simple.step g p) ⟨Cache.init p d, thr, al, m⟩ os).1) {a n : Nat} (ha : g.Proper a) :
    (s.isHitWithCastout g p a).1 = s.c.isHit g a ∧
    (s.c.isHit g a = true → (s.isHitWithCastout g p a).2 = none) ∧
    (∀ b, g.Proper b → ((s.read g p a n).1.c.isHit g b = true ↔
      g.block b = g.block a ∨ s.c.isHit g b = true ∧ (s.isHitWithCastout g p a).2.map (·.1) ≠ some (g.block b))) ∧
    (((s.isHitWithCastout g p a).2.map (·.2)).getD false = false → (s.read g p a n).1.mem = s.mem) ∧
    (s.c.isHit g a = false → ∀ w, (s.read g p a n).1.c.find g a = some w →
      (((s.read g p a n).1.c.sets (g.idx a)).ways w).modified = false) := by
  obtain ⟨P, hl, R, _⟩ := simple_rep hg hp d hd thr al m os ho
  rw [← hs] at R
  have N := hg.nice
  unfold Simple.isHitWithCastout Simple.read
  cases hf : s.c.find g a with
  | some w =>
    refine ⟨by simp [Cache.isHit, hf], by simp, ?_, fun _ => rfl, by simp [Cache.isHit, hf]⟩
    intro b hb
    obtain ⟨h1, h2, h3⟩ := Cache.find_some N R.lines ha hf
    have I' : LInv g (s.c.touchMRU p (g.idx a) w).at' := by rw [at_touchMRU]; exact R.lines
    show (s.c.touchMRU p (g.idx a) w).isHit g b = true ↔ _
    rw [Cache.isHit_iff N I' hb, Cache.isHit_iff N R.lines hb, at_touchMRU]
    simp
    intro he
    exact ⟨_, w, h1, h2, h3.trans he.symm⟩
  | none =>
    refine ⟨by simp [Cache.isHit, hf], by simp [Cache.isHit, hf], ?_, ?_, ?_⟩
    rotate_left 2
    · intro _ w hw
      obtain ⟨R', hlt, hv, hadr, _⟩ := R.replaceLine N hl ha hf (p := p)
      have I' : LInv g ((s.replaceLine g p a).1.c.touchMRU p (g.idx a) (s.replaceLine g p a).2).at' := by
        rw [at_touchMRU]; exact R'.lines
      obtain ⟨h1, h2, h3⟩ := Cache.find_some N I' ha hw
      rw [at_touchMRU] at h2 h3
      obtain ⟨_, rfl⟩ := R'.lines.addr_inj N h1 hlt h2 hv (h3.trans hadr.symm)
      show (((s.replaceLine g p a).1.c.touchMRU p (g.idx a) (s.replaceLine g p a).2).at' _ _).modified = false
      rw [at_touchMRU]
      show ((s.c.setLine (g.idx a) (p.lru (s.c.sets (g.idx a)).rep) _).at' (g.idx a) (p.lru (s.c.sets (g.idx a)).rep)).modified = false
      rw [at_setLine, setAt_same]
    · intro b hb
      obtain ⟨R', _⟩ := R.replaceLine N hl ha hf (p := p)
      have I' : LInv g ((s.replaceLine g p a).1.c.touchMRU p (g.idx a) (s.replaceLine g p a).2).at' := by
        rw [at_touchMRU]; exact R'.lines
      show ((s.replaceLine g p a).1.c.touchMRU p (g.idx a) (s.replaceLine g p a).2).isHit g b = true ↔ _
      rw [Cache.isHit_iff N I' hb, Cache.isHit_iff N R.lines hb, at_touchMRU]
      show Has g (s.c.setLine (g.idx a) _ _).at' _ ↔ _
      rw [at_setLine, R.lines.has_put N _ (hl _ (R.reps _)) _ (N.proper a ha).2 rfl]
      show _ ∨ _ ∧ ¬ (((s.c.sets (g.idx a)).ways (p.lru (s.c.sets (g.idx a)).rep)).valid = true ∧
        ((s.c.sets (g.idx a)).ways (p.lru (s.c.sets (g.idx a)).rep)).addr = g.block b) ↔ _
      simp only
      split <;> simp_all
    · show _ → (s.replaceLine g p a).1.mem = _
      unfold Simple.replaceLine
      simp only
      intro h
      apply if_neg
      intro hc
      simp at hc
      simp [hc.1, hc.2] at h

/-- the write of the first block is cast out by the read of the third address -/
example : ((runOps (Simple.step ⟨4, 4, 2, 1⟩ (plru 0)) ⟨Cache.init (plru 0) exLine, false, true, fun a => a⟩
    [.write 1 [77, 78]]).1.isHitWithCastout ⟨4, 4, 2, 1⟩ (plru 0) 8) = (false, some (0, true)) := by decide +kernel

/-! ### C67: misses of a `SimpleCache2` -/

/-- the cold miss flag says whether the block is missing while its set still has an invalid way, and the lookup that
computes it finds the same line -/
theorem C67_cold_miss {σ} {g : Geo} {p : Policy σ} (hg : g.Ok) (hp : p.Legal g.nWays) {u : User σ} (h : Reach g p u)
    {a : Nat} (ha : g.Proper a) :
    ((u.c.sets (g.idx a)).findCold g.nWays (g.tag a)).1 = u.c.find g a ∧
    (((u.c.sets (g.idx a)).findCold g.nWays (g.tag a)).2 = true ↔
      g.block a ∉ held u.trace ∧ ∃ w < g.nWays, ((u.c.sets (g.idx a)).ways w).valid = false) := by
  rw [← C46_hit_iff hg hp h ha]
  unfold CSet.findCold
  rw [findColdFrom_spec]
  refine ⟨rfl, ?_⟩
  show (if (u.c.find g a).isSome = true then _ else _) = true ↔ _
  unfold Cache.isHit
  cases u.c.find g a with
  | some w => simp
  | none => simp

/-- a fill into a line chosen with the invalid check replaces a block only if every way of the set is valid;
`hasOpenWay` tells -/
theorem C67_open_way {σ} (g : Geo) (p : Policy σ) (u : User σ) (a : Nat) :
    ((u.c.sets (g.idx a)).hasOpenWay g.nWays = true ↔ ∃ w < g.nWays, ((u.c.sets (g.idx a)).ways w).valid = false) ∧
    ((∃ w < g.nWays, ((u.c.sets (g.idx a)).ways w).valid = false) →
      (u.step g p (.fill a .invalidCheck)).trace = u.trace ++ [.fill (g.block a) none]) ∧
    ((∀ w < g.nWays, ((u.c.sets (g.idx a)).ways w).valid = true) →
      (u.step g p (.fill a .invalidCheck)).c = (u.step g p (.fill a .lru)).c) := by
  have hs := findInvalid_spec (u.c.sets (g.idx a)) g.nWays
  refine ⟨?_, ?_, ?_⟩
  · unfold CSet.hasOpenWay
    rcases hs with ⟨h1, h2⟩ | ⟨h1, h2⟩
    · constructor
      · intro _; exact ⟨_, h1, h2⟩
      · intro _; simp; omega
    · constructor
      · intro h; simp [h1] at h
      · rintro ⟨w, hw, hv⟩; rw [h2 w hw] at hv; cases hv
  · rintro ⟨w, hw, hv⟩
    rcases hs with ⟨h1, h2⟩ | ⟨h1, h2⟩
    · have e : u.c.victim g p a .invalidCheck = (u.c.sets (g.idx a)).findInvalid g.nWays := if_neg (by omega)
      simp only [User.step, e]
      simp [h2]
    · rw [h2 w hw] at hv; cases hv
  · intro hall
    rcases hs with ⟨h1, h2⟩ | ⟨h1, h2⟩
    · rw [hall _ h1] at h2; cases h2
    · simp only [User.step, Cache.victim, CSet.replaceCheck]
      rw [if_pos (by omega)]; rfl

/-- one way filled, the other open: a fill with the check replaces nothing -/
example : (((⟨Cache.init (plru 1) exLine, []⟩ : User _).step exGeo (plru 1) (.fill 0 .lru)).step exGeo (plru 1)
    (.fill 128 .invalidCheck)).trace = [.fill 0 none, .fill 128 none] := by decide +kernel

/-! ### C68: data of a `SimpleCache2` line -/

/-- a write that hits changes exactly the written bytes of the line as later reads see it, and a later read of a written
byte returns it, whatever happens to other lines -/
theorem C68_read_after_write {σ} (g : Geo) (p : Policy σ) (c : Cache σ) (s w a : Nat) (bs : List Nat)
    (h : g.off a + bs.length ≤ g.line) (o n : Nat) (hn : g.off o + n ≤ g.line) :
    ((c.write g p s w a bs).read g p s w o n).2 =
      some ((List.range n).map (fun i => if g.off a ≤ g.off o + i ∧ g.off o + i < g.off a + bs.length
        then bs.getD (g.off o + i - g.off a) 0 else ((c.sets s).ways w).data (g.off o + i))) ∧
    (((c.write g p s w a bs).sets s).ways w).modified = true ∧
    ∀ s' w', ¬ (s' = s ∧ w' = w) → ((c.write g p s w a bs).sets s').ways w' = (c.sets s').ways w' := by
  have e : (c.write g p s w a bs).at' = setAt c.at' s w { c.at' s w with data := put (c.at' s w).data (g.off a) bs, modified := true } := by
    unfold Cache.write Line.write
    rw [if_pos h]
    simp only
    rw [at_touchMRU, at_setLine]; rfl
  refine ⟨?_, ?_, ?_⟩
  · unfold Cache.read Line.read
    rw [if_pos hn]
    simp only
    show some (get ((c.write g p s w a bs).at' s w).data _ _) = _
    rw [e, setAt_same]; rfl
  · show ((c.write g p s w a bs).at' s w).modified = true
    rw [e, setAt_same]
  · intro s' w' hne
    show (c.write g p s w a bs).at' s' w' = _
    rw [e, setAt_other _ _ hne]; rfl

example : (((Cache.init (plru 1) exLine).write exGeo (plru 1) 0 1 3 [7, 8]).read exGeo (plru 1) 0 1 2 4).2 = some [0, 7, 8, 0] := by
  decide +kernel

end Sparta.Cache
