import Verif.CachedMem.Lemmas

/-!
# The caches represent the specification
-/

namespace Sparta.CachedMem

open Sparta.ArchData (AD WF)
open Sparta.MemoryMap (wordSize)
open Sparta.MemIf (Bytes w64 peekLoop)

structure Cfg (s : Sys) : Prop where
  pow : 2 ^ s.bs.log2 = s.bs
  al : s.bs ∣ s.total
  pos : 0 < s.total
  lt : s.total < wordSize
  dpow : 2 ^ s.dbs.log2 = s.dbs
  ddvd : s.bs ∣ s.dbs
  dtot : s.total ≤ s.dsize

structure WOk (bs total : Nat) (held : Nat → Bool) (w : SW) : Prop where
  pos : 0 < w.data.length
  fits : w.addr + w.data.length ≤ total
  block : w.addr % bs + w.data.length ≤ bs
  held : held (w.addr / bs) = true

structure CRep (bs total : Nat) (mem : Nat → UInt8) (x : Cache) (y : SCache) : Prop where
  m : MRep x.mem bs total y.held (view mem y.writes)
  writes : x.writes = report mem y.writes
  uid : x.uid = y.uid
  ok : ∀ w ∈ y.writes, WOk bs total y.held w
  sorted : y.writes.Pairwise fun v w => v.uid < w.uid
  le : ∀ w ∈ y.writes, w.uid ≤ y.uid

structure Rep (s : Sys) (t : Spec) : Prop where
  cfg : Cfg s
  bs : s.bs = t.bs
  total : s.total = t.total
  wm : s.wm = t.wm
  mem : s.down = t.mem
  n : s.n = t.n
  caches : ∀ c, c < t.n → CRep t.bs t.total t.mem (s.caches c) (t.caches c)

theorem view_uncovered {mem : Nat → UInt8} {ws : List SW} {x : Nat} (h : ∀ w ∈ ws, w.covers x = false) :
    view mem ws x = mem x := by
  induction ws generalizing mem with
  | nil => rfl
  | cons w ws ih =>
    show view _ ws x = _
    rw [ih fun v hv => h v (List.mem_cons_of_mem _ hv)]
    exact put_out (covers_false (h w (List.mem_cons_self ..)))

/-- the bytes of a write are in the block of the write -/
theorem WOk.block_of {bs total held w} (h : WOk bs total held w) (h0 : 0 < bs) {x : Nat} (hx : w.covers x = true) :
    x / bs = w.addr / bs := by
  obtain ⟨h1, h2⟩ := covers_iff.1 hx
  have := (ArchData.in_line h0 h.block (j := x - w.addr) (by omega)).1
  rwa [show w.addr + (x - w.addr) = x by omega] at this

theorem CRep.unheld {bs total mem x y} (h : CRep bs total mem x y) (h0 : 0 < bs) {a : Nat} (hh : y.held (a / bs) = false) :
    ∀ w ∈ y.writes, w.covers a = false := by
  intro w hw
  cases hc : w.covers a with
  | false => rfl
  | true =>
    have := (h.ok w hw).held
    rw [← (h.ok w hw).block_of h0 hc, hh] at this
    cases this

theorem Rep.bs0 {s t} (r : Rep s t) : 0 < t.bs := by rw [← r.bs]; exact MemIf.bs_pos r.cfg.pow

/-! ### Windows and blocks -/

theorem fits_node {s t} (r : Rep s t) {a k : Nat} (hs : sized a k) : s.node.inWindow a k = t.fits a k := by
  rw [MemIf.inWindow_eq (n := s.node) rfl hs]
  show decide (a + k ≤ s.total) = _
  rw [r.total]; rfl

theorem fits_dnode {s t} (r : Rep s t) {a k : Nat} (hs : sized a k) (hf : a + k ≤ t.total) : s.dnode.inWindow a k = true := by
  rw [MemIf.inWindow_eq (n := s.dnode) rfl hs]
  have h := r.cfg.dtot
  rw [r.total] at h
  exact decide_eq_true (Nat.le_trans hf h)

theorem spans_node {s t} (r : Rep s t) {a k : Nat} (hs : sized a k) : s.node.spans a k = !t.oneBlock a k := by
  rw [MemIf.spans_eq (n := s.node) r.cfg.pow hs]
  show (a / s.bs != (a + k - 1) / s.bs) = _
  rw [r.bs]; rfl

theorem oneBlock_iff {s t} (r : Rep s t) {a k : Nat} (hk : 0 < k) : t.oneBlock a k = true ↔ a % t.bs + k ≤ t.bs := by
  unfold Spec.oneBlock
  rw [beq_iff_eq]
  exact (MemIf.inBlock_iff r.bs0 hk).symm

theorem in_bigger {b d a k : Nat} (h0 : 0 < b) (hd : b ∣ d) (hd0 : 0 < d) (h : a % b + k ≤ b) : a % d + k ≤ d := by
  obtain ⟨q, rfl⟩ := hd
  have h1 : a % (b * q) % b = a % b := Nat.mod_mul_right_mod a b q
  have h2 := Nat.mod_lt a hd0
  have h3 := Nat.div_add_mod (a % (b * q)) b
  rw [h1] at h3
  have h4 : a % (b * q) / b < q := Nat.div_lt_of_lt_mul h2
  have h5 : b * (a % (b * q) / b + 1) ≤ b * q := Nat.mul_le_mul_left _ h4
  rw [Nat.mul_add] at h5
  omega

theorem spans_dnode {s t} (r : Rep s t) {a k : Nat} (hs : sized a k) (hb : a % t.bs + k ≤ t.bs) :
    s.dnode.spans a k = false := by
  rw [MemIf.spans_eq (n := s.dnode) r.cfg.dpow hs]
  have hd0 := MemIf.bs_pos r.cfg.dpow
  have := in_bigger r.bs0 (d := s.dbs) (by rw [← r.bs]; exact r.cfg.ddvd) hd0 hb
  have := (MemIf.inBlock_iff hd0 hs.1).1 this
  show (a / s.dbs != (a + k - 1) / s.dbs) = false
  rw [this]; simp

theorem base_node {s t} (r : Rep s t) (a : Nat) : s.node.base a = a / t.bs * t.bs := by
  rw [MemIf.base_eq (n := s.node) r.cfg.pow]
  show a / s.bs * s.bs = _
  rw [r.bs]

theorem blockEnd_node {s t} (r : Rep s t) {a : Nat} (ha : a < t.total) :
    s.node.base (w64 (a + s.bs)) = (a / t.bs + 1) * t.bs := by
  have h0 := MemIf.bs_pos r.cfg.pow
  have hw := MemIf.bs_dvd_word r.cfg.pow r.cfg.al r.cfg.pos r.cfg.lt
  have hlt := r.cfg.lt
  have h2 : s.total + s.bs ≤ wordSize := by
    obtain ⟨q, hq⟩ := r.cfg.al
    have := MemIf.block_end_le h0 hw (a := s.total) hlt
    rw [hq, Nat.mul_div_cancel_left _ h0] at this
    rw [hq]
    rw [Nat.add_mul, Nat.mul_comm] at this
    omega
  rw [← r.total] at ha
  rw [MemIf.w64_of_lt (by omega), base_node r, r.bs, Nat.add_div_right _ r.bs0]

/-- blocks lie inside -/
theorem block_inside {s t} (r : Rep s t) {a : Nat} (ha : a < t.total) : a / t.bs * t.bs + t.bs ≤ t.total := by
  have h0 := r.bs0
  have := MemIf.block_end_le h0 (t := t.total) (a := a) (by rw [← r.bs, ← r.total]; exact r.cfg.al) ha
  rwa [Nat.add_mul, Nat.one_mul] at this

theorem total_lt {s t} (r : Rep s t) : t.total < wordSize := by rw [← r.total]; exact r.cfg.lt

/-! ### Reading -/

theorem downPeek_eq {s t} (r : Rep s t) {a k : Nat} (hk : 0 < k) (hf : a + k ≤ t.total) :
    s.downPeek a k = some (bytes t.mem a k) := by
  have := total_lt r
  unfold Sys.downPeek
  rw [if_pos (fits_dnode r ⟨hk, by omega⟩ hf), r.mem]
  rfl

theorem read_eq {s t} (r : Rep s t) {c a k : Nat} (hc : c < t.n) (hk : 0 < k) (hf : a + k ≤ t.total)
    (hb : a % t.bs + k ≤ t.bs) : read_ s c a k = some (some (bytes (t.see c) a k)) := by
  have R := r.caches c hc
  unfold read_
  rw [missing_eq R.m (by omega)]
  cases hh : (t.caches c).held (a / t.bs) with
  | true =>
    show Option.map some _ = _
    rw [peek_held R.m (by omega) hb hh]; rfl
  | false =>
    show Option.map some _ = _
    rw [downPeek_eq r hk hf]
    show some (some _) = some (some _)
    congr 2
    apply bytes_congr
    intro x h1 h2
    have := (ArchData.in_line r.bs0 hb (j := x - a) (by omega)).1
    rw [show a + (x - a) = x by omega] at this
    exact (view_uncovered (R.unheld r.bs0 (by rw [this]; exact hh))).symm

theorem tryRead_eq {s t} (r : Rep s t) {c a k : Nat} (hc : c < t.n) (hs : sized a k) :
    tryRead s c a k = some (if t.oneBlock a k && t.fits a k then some (bytes (t.see c) a k) else none) := by
  unfold tryRead
  rw [spans_node r hs, fits_node r hs]
  cases hb : t.oneBlock a k with
  | false => rfl
  | true =>
    rw [if_neg (by simp)]
    cases hf : t.fits a k with
    | false => rfl
    | true =>
      rw [if_neg (by simp), read_eq r hc hs.1 (of_decide_eq_true hf) ((oneBlock_iff r hs.1).1 hb)]
      rfl

theorem peekLoop_eq {s t} (r : Rep s t) {c : Nat} (hc : c < t.n) :
    ∀ (fuel a stop : Nat), a < stop → stop ≤ t.total → stop - a < fuel →
      peekLoop s.node (fun a k => read_ s c a k) fuel a stop = some (some (bytes (t.see c) a (stop - a))) := by
  have h0 := r.bs0
  intro fuel
  induction fuel with
  | zero => intro a stop _ _ h; omega
  | succ fuel ih =>
    intro a stop h1 h2 h3
    have hlt := total_lt r
    have ha : a < t.total := by omega
    unfold peekLoop
    dsimp only
    rw [show s.node.bs = s.bs from rfl, blockEnd_node r ha]
    have e := Nat.div_add_mod a t.bs
    rw [Nat.mul_comm] at e
    have hm := Nat.mod_lt a h0
    have he : (a / t.bs + 1) * t.bs = a / t.bs * t.bs + t.bs := by rw [Nat.add_mul]; omega
    by_cases hs : (a / t.bs + 1) * t.bs ≥ stop
    · rw [if_pos hs, MemIf.w64_sub (by omega) (by omega), read_eq r hc (by omega) (by omega) (by omega)]
    · rw [if_neg hs, MemIf.w64_sub (by omega) (by omega), read_eq r hc (by omega) (by omega) (by omega)]
      dsimp only
      rw [ih _ stop (by omega) h2 (by omega)]
      show some (some _) = some (some _)
      rw [show stop - a = ((a / t.bs + 1) * t.bs - a) + (stop - (a / t.bs + 1) * t.bs) by omega, bytes_append,
        show a + ((a / t.bs + 1) * t.bs - a) = (a / t.bs + 1) * t.bs by omega]

theorem tryPeek_eq {s t} (r : Rep s t) {c a k : Nat} (hc : c < t.n) (hs : sized a k) :
    tryPeek s c a k = some (if t.fits a k then some (bytes (t.see c) a k) else none) := by
  unfold tryPeek
  rw [fits_node r hs]
  cases hf : t.fits a k with
  | false => rfl
  | true =>
    have h1 := hs.1
    rw [if_pos rfl, if_pos rfl, MemIf.w64_of_lt hs.2, peekLoop_eq r hc _ _ _ (by omega) (of_decide_eq_true hf) (by omega),
      show a + k - a = k by omega]

/-! ### Writing -/

theorem Rep.set {s t} (r : Rep s t) {c : Nat} {x : Cache} {y : SCache} (h : CRep t.bs t.total t.mem x y) :
    Rep (s.set c x) (t.set c y) := by
  refine ⟨⟨r.cfg.1, r.cfg.2, r.cfg.3, r.cfg.4, r.cfg.5, r.cfg.6, r.cfg.7⟩, r.bs, r.total, r.wm, r.mem, r.n, ?_⟩
  intro d hd
  show CRep t.bs t.total t.mem (upd s.caches c x d) (upd t.caches c y d)
  by_cases e : d = c
  · rw [e, upd_same, upd_same]; exact h
  · rw [upd_other _ _ e, upd_other _ _ e]; exact r.caches d hd

/-- the memory of the cache with the block of the address loaded -/
theorem fetch_eq {s t} (r : Rep s t) {c a : Nat} (hc : c < t.n) (ha : a < t.total) :
    ∃ m, fetch s c a = some m ∧
      MRep m t.bs t.total (upd (t.caches c).held (a / t.bs) true) (t.see c) := by
  have R := r.caches c hc
  have h0 := r.bs0
  unfold fetch
  rw [missing_eq R.m ha]
  have hi := block_inside r ha
  have hal : a / t.bs * t.bs % t.bs = 0 := Nat.mul_mod_left _ _
  have hdv : a / t.bs * t.bs / t.bs = a / t.bs := Nat.mul_div_cancel _ h0
  cases hh : (t.caches c).held (a / t.bs) with
  | true =>
    refine ⟨_, rfl, ?_⟩
    have : upd (t.caches c).held (a / t.bs) true = (t.caches c).held := by
      funext i
      by_cases e : i = a / t.bs
      · rw [e, upd_same, hh]
      · rw [upd_other _ _ e]
    rw [this]; exact R.m
  | false =>
    have e : (s.downPeek (s.node.base a) s.bs) = some (bytes (t.see c) (a / t.bs * t.bs) t.bs) := by
      rw [base_node r, r.bs, downPeek_eq r h0 hi]
      congr 1
      apply bytes_congr
      intro x h1 h2
      have := (ArchData.in_line h0 (a := a / t.bs * t.bs) (n := t.bs) (j := x - a / t.bs * t.bs) (by omega) (by omega)).1
      rw [show a / t.bs * t.bs + (x - a / t.bs * t.bs) = x by omega, hdv] at this
      exact (view_uncovered (R.unheld h0 (by rw [this]; exact hh))).symm
    obtain ⟨m', hm, hr⟩ := loadLine_spec R.m (a := a / t.bs * t.bs) (by omega) hal
    rw [hdv] at hr
    refine ⟨m', ?_, hr⟩
    show (s.downPeek (s.node.base a) s.bs).bind _ = _
    rw [e, base_node r]
    exact hm

theorem write_eq {s t} (r : Rep s t) {c a : Nat} {d : Bytes} (hc : c < t.n) (hk : 0 < d.length)
    (hf : a + d.length ≤ t.total) (hb : a % t.bs + d.length ≤ t.bs) :
    if (t.caches c).writes.length = t.wm then write_ s c a d = none
    else ∃ s', write_ s c a d = some s' ∧ Rep s' (t.set c ⟨(t.caches c).writes ++ [⟨(t.caches c).uid + 1, a, d⟩],
      (t.caches c).uid + 1, upd (t.caches c).held (a / t.bs) true⟩) := by
  have R := r.caches c hc
  have el : (s.caches c).writes.length = (t.caches c).writes.length := by rw [R.writes, report_length]
  by_cases hw : (t.caches c).writes.length = t.wm
  · rw [if_pos hw]
    unfold write_
    dsimp only
    rw [el, r.wm, if_pos hw]
  · rw [if_neg hw]
    unfold write_
    dsimp only
    rw [el, r.wm, if_neg hw]
    obtain ⟨m, hm, hM⟩ := fetch_eq r hc (a := a) (by omega)
    have hh : upd (t.caches c).held (a / t.bs) true (a / t.bs) = true := upd_same ..
    obtain ⟨m', hm', hM'⟩ := write_held hM (d := d) (by omega) hb hh
    refine ⟨s.set c ⟨m', (s.caches c).writes ++ [⟨(s.caches c).uid + 1, a, d, bytes (t.see c) a d.length⟩],
      (s.caches c).uid + 1⟩, ?_, ?_⟩
    · rw [hm, Option.bind_some, peek_held hM (by omega) hb hh, Option.bind_some, hm']
    · apply r.set
      refine ⟨?_, ?_, ?_, ?_, ?_, ?_⟩
      · show MRep m' t.bs t.total _ (view t.mem (_ ++ [_]))
        rw [view_snoc]; exact hM'
      · show _ = report t.mem (_ ++ [_])
        rw [report_snoc, R.writes, R.uid]; rfl
      · show (s.caches c).uid + 1 = _
        rw [R.uid]
      · intro w hw
        rcases List.mem_append.1 hw with hw | hw
        · have := R.ok w hw
          refine ⟨this.pos, this.fits, this.block, ?_⟩
          show upd (t.caches c).held (a / t.bs) true (w.addr / t.bs) = true
          unfold upd
          split
          · rfl
          · exact this.held
        · rw [List.mem_singleton] at hw
          subst hw
          exact ⟨hk, hf, hb, hh⟩
      · rw [List.pairwise_append]
        refine ⟨R.sorted, List.pairwise_singleton .., ?_⟩
        intro v hv w hw
        rw [List.mem_singleton] at hw
        subst hw
        have := R.le v hv
        show v.uid < (t.caches c).uid + 1
        omega
      · intro w hw
        show w.uid ≤ (t.caches c).uid + 1
        rcases List.mem_append.1 hw with hw | hw
        · have := R.le w hw
          omega
        · rw [List.mem_singleton] at hw
          subst hw
          exact Nat.le_refl _

end Sparta.CachedMem
