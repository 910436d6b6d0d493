import Verif.CachedMem.Lemmas2

/-!
# Commits, drops and pokes
-/

namespace Sparta.CachedMem

open Sparta.ArchData (AD WF)
open Sparta.MemoryMap (wordSize)
open Sparta.MemIf (Bytes w64 peekLoop)

/-! ### Merging -/

theorem mergeLoop_eq {bs total : Nat} (h0 : 0 < bs) {y : SCache} :
    ∀ (d : Bytes) (a : Nat) (mem : Nat → UInt8) (x : Cache), CRep bs total mem x y →
      (∀ j, j < d.length → a + j < total ∧ y.held ((a + j) / bs) = true) →
      ∃ x', mergeLoop x a d = some x' ∧ CRep bs total (put mem a d) x' y := by
  intro d
  induction d with
  | nil => intro a mem x R _; exact ⟨x, rfl, by rw [put_nil]; exact R⟩
  | cons b d ih =>
    intro a mem x R h
    obtain ⟨c1, c2, c3⟩ := collide_spec a b y.writes mem
    have hnext : ∀ j, j < d.length → a + 1 + j < total ∧ y.held ((a + 1 + j) / bs) = true := fun j hj => by
      rw [Nat.add_assoc, Nat.add_comm 1 j]; exact h (j + 1) (by simp; omega)
    rw [put_cons]
    unfold mergeLoop
    rw [← R.writes] at c1 c2
    cases hx : collide a b x.writes with
    | mk ws hit =>
      rw [hx] at c1 c2
      dsimp only at c1 c2
      cases hit with
      | true =>
        rw [← c1, if_pos rfl] at c2 c3
        dsimp only
        exact ih (a + 1) (put mem a [b]) _ ⟨by rw [c3]; exact R.m, c2.symm, R.uid, R.ok, R.sorted, R.le⟩ hnext
      | false =>
        rw [← c1, if_neg (by simp)] at c2 c3
        dsimp only
        have ha := h 0 (by simp)
        rw [Nat.add_zero] at ha
        have hm := Nat.mod_lt a h0
        obtain ⟨m', hm', hM'⟩ := write_held R.m (a := a) (d := [b]) ha.1 (show a % bs + 1 ≤ bs from hm) ha.2
        rw [hm']
        dsimp only
        exact ih (a + 1) (put mem a [b]) _ ⟨by rw [c3]; exact hM', c2.symm, R.uid, R.ok, R.sorted, R.le⟩ hnext

theorem merge_eq {bs total : Nat} (h0 : 0 < bs) {y : SCache} {d : Bytes} {a : Nat} {mem : Nat → UInt8} {x : Cache}
    (R : CRep bs total mem x y) (hf : a + d.length ≤ total) (hk : 0 < d.length) (hb : a % bs + d.length ≤ bs)
    (hh : y.held (a / bs) = true) : ∃ x', merge x a d = some x' ∧ CRep bs total (put mem a d) x' y := by
  unfold merge
  by_cases hl : x.writes.length > 0
  · rw [if_pos hl]
    apply mergeLoop_eq h0 d a mem x R
    intro j hj
    exact ⟨by omega, by rw [(ArchData.in_line h0 hb hj).1]; exact hh⟩
  · rw [if_neg hl]
    have hn : y.writes = [] := by
      have := report_length mem y.writes
      rw [← R.writes] at this
      exact List.eq_nil_of_length_eq_zero (by omega)
    obtain ⟨m', hm', hM'⟩ := write_held R.m (a := a) (d := d) (by omega) hb hh
    rw [hm']
    refine ⟨_, rfl, ?_, ?_, R.uid, R.ok, R.sorted, R.le⟩
    · rw [hn]
      rw [hn] at hM'
      exact hM'
    · show x.writes = _
      rw [R.writes, hn]; rfl

/-- after merging into the caches below `k` -/
theorem mergeAll_eq {s t} (r : Rep s t) {src : Option Nat} {a : Nat} {d : Bytes} (hf : a + d.length ≤ t.total)
    (hk : 0 < d.length) (hb : a % t.bs + d.length ≤ t.bs) (hh : t.allHold src a) :
    ∀ k, k ≤ t.n → ∃ cs, mergeAll s src a d k = some { s with caches := cs } ∧
      (∀ c, c < k → src ≠ some c → CRep t.bs t.total (put t.mem a d) (cs c) (t.caches c)) ∧
      (∀ c, (k ≤ c ∨ src = some c) → cs c = s.caches c) := by
  intro k
  induction k with
  | zero => intro _; exact ⟨s.caches, rfl, fun c hc => by omega, fun _ _ => rfl⟩
  | succ k ih =>
    intro hkn
    obtain ⟨cs, h1, h2, h3⟩ := ih (by omega)
    unfold mergeAll
    rw [h1]
    dsimp only
    by_cases hs : src = some k
    · rw [if_pos hs]
      refine ⟨cs, rfl, ?_, ?_⟩
      · intro c hc hne
        exact h2 c (Nat.lt_of_le_of_ne (by omega) (by rintro rfl; exact hne hs)) hne
      · intro c hc
        rcases hc with hc | hc
        · exact h3 c (.inl (by omega))
        · exact h3 c (.inr hc)
    · rw [if_neg hs]
      have R := r.caches k hkn
      obtain ⟨x', hx, hR⟩ := merge_eq r.bs0 R hf hk hb (hh k hkn hs)
      rw [h3 k (.inl (Nat.le_refl _)), hx]
      refine ⟨upd cs k x', rfl, ?_, ?_⟩
      · intro c hc hne
        by_cases e : c = k
        · rw [e, upd_same]; exact hR
        · rw [upd_other _ _ e]; exact h2 c (by omega) hne
      · intro c hc
        have e : c ≠ k := by
          rintro rfl
          rcases hc with hc | hc
          · omega
          · exact hs hc
        rw [upd_other _ _ e]
        rcases hc with hc | hc
        · exact h3 c (.inl (by omega))
        · exact h3 c (.inr hc)

theorem sysWrite_eq {s t} (r : Rep s t) {src : Option Nat} {a : Nat} {d : Bytes} (hf : a + d.length ≤ t.total)
    (hk : 0 < d.length) (hb : a % t.bs + d.length ≤ t.bs) (hh : t.allHold src a) :
    ∃ cs, sysWrite s src a d = some ({ s with caches := cs, down := put t.mem a d }, true) ∧
      (∀ c, c < t.n → src ≠ some c → CRep t.bs t.total (put t.mem a d) (cs c) (t.caches c)) ∧
      (∀ c, src = some c → cs c = s.caches c) := by
  have hlt := total_lt r
  have hs : sized a d.length := ⟨hk, by omega⟩
  obtain ⟨cs, h1, h2, h3⟩ := mergeAll_eq r hf hk hb hh t.n (Nat.le_refl _)
  refine ⟨cs, ?_, h2, fun c hc => h3 c (.inr hc)⟩
  unfold sysWrite
  rw [← r.n] at h1
  rw [spans_dnode r hs hb, if_neg (by simp), fits_dnode r hs hf, if_neg (by simp), h1, ← r.mem]
  rfl

theorem device_eq {s t} (r : Rep s t) {a : Nat} {d : Bytes} (hf : a + d.length ≤ t.total)
    (hk : 0 < d.length) (hb : a % t.bs + d.length ≤ t.bs) (hh : t.allHold none a) :
    ∃ s', sysWrite s none a d = some (s', true) ∧ Rep s' { t with mem := put t.mem a d } := by
  obtain ⟨cs, h1, h2, -⟩ := sysWrite_eq r hf hk hb hh
  exact ⟨_, h1, ⟨r.cfg.1, r.cfg.2, r.cfg.3, r.cfg.4, r.cfg.5, r.cfg.6, r.cfg.7⟩, r.bs, r.total, r.wm, rfl, r.n,
    fun c hc => h2 c hc (by simp)⟩

theorem commit_eq {s t} (r : Rep s t) {c : Nat} (hc : c < t.n) {w : SW} {ws : List SW}
    (hw : (t.caches c).writes = w :: ws) (hh : t.allHold (some c) w.addr) :
    ∃ s', commit s c w.uid = some s' ∧
      Rep s' { t.set c { t.caches c with writes := ws } with mem := put t.mem w.addr w.data } := by
  have R := r.caches c hc
  have ok := R.ok w (by rw [hw]; exact List.mem_cons_self ..)
  obtain ⟨cs, h1, h2, h3⟩ := sysWrite_eq r ok.fits ok.pos ok.block hh
  have ew : (s.caches c).writes = ⟨w.uid, w.addr, w.data, bytes t.mem w.addr w.data.length⟩ ::
      report (put t.mem w.addr w.data) ws := by rw [R.writes, hw]; rfl
  unfold commit
  rw [ew]
  dsimp only
  rw [if_neg (by simp), h1]
  refine ⟨_, rfl, ⟨r.cfg.1, r.cfg.2, r.cfg.3, r.cfg.4, r.cfg.5, r.cfg.6, r.cfg.7⟩, r.bs, r.total, r.wm, rfl, r.n, ?_⟩
  intro d hd
  show CRep t.bs t.total _ (upd cs c { cs c with writes := (cs c).writes.tail } d)
    (upd t.caches c { t.caches c with writes := ws } d)
  by_cases e : d = c
  · rw [e, upd_same, upd_same, h3 c rfl, ew]
    have hm := R.m
    have hs := R.sorted
    have hok := R.ok
    have hle := R.le
    rw [hw] at hm hs hok hle
    exact ⟨hm, rfl, R.uid, fun v hv => hok v (List.mem_cons_of_mem _ hv), (List.pairwise_cons.1 hs).2,
      fun v hv => hle v (List.mem_cons_of_mem _ hv)⟩
  · rw [upd_other _ _ e, upd_other _ _ e]
    exact h2 d hd (by simpa using fun h => e h.symm)

/-! ### Dropping -/

theorem takeWhile_any (l k : List SW) (u : Nat) (h : l.any (fun w => w.uid == u) = true) :
    (l ++ k).takeWhile (fun w => w.uid != u) = l.takeWhile (fun w => w.uid != u) := by
  induction l with
  | nil => cases h
  | cons w l ih =>
    rw [List.cons_append]
    by_cases e : w.uid = u
    · rw [List.takeWhile_cons_of_neg (by simp [e]), List.takeWhile_cons_of_neg (by simp [e])]
    · rw [List.takeWhile_cons_of_pos (by simp [e]), List.takeWhile_cons_of_pos (by simp [e]), ih (by simpa [e] using h)]

theorem dropLoop_eq {bs total : Nat} {held : Nat → Bool} {mem : Nat → UInt8} (u : Nat) :
    ∀ (k : Nat) (ws : List SW) (m : AD), ws.length = k → MRep m bs total held (view mem ws) →
      (∀ w ∈ ws, WOk bs total held w) → ws.Pairwise (fun v w => v.uid < w.uid) →
      ws.any (fun w => w.uid == u) = true →
      ∃ m', dropLoop u m (report mem ws).reverse =
          some (m', (report mem (ws.takeWhile fun w => w.uid != u)).reverse) ∧
        MRep m' bs total held (view mem (ws.takeWhile fun w => w.uid != u)) := by
  intro k
  induction k with
  | zero =>
    intro ws m hl _ _ _ hu
    rw [List.eq_nil_of_length_eq_zero hl] at hu
    cases hu
  | succ k ih =>
    intro ws m hl R hok hs hu
    have hne : ws ≠ [] := by rintro rfl; cases hl
    obtain ⟨vs, x, rfl⟩ : ∃ vs x, ws = vs ++ [x] := ⟨_, _, (List.dropLast_concat_getLast hne).symm⟩
    have ok := hok x (by simp)
    rw [view_snoc] at R
    rw [report_snoc, List.reverse_append]
    show ∃ m', dropLoop u m (_ :: _) = _ ∧ _
    unfold dropLoop
    dsimp only
    have hf := ok.fits
    have hp := ok.pos
    obtain ⟨m', hm', hM'⟩ := write_held R (a := x.addr) (d := bytes (view mem vs) x.addr x.data.length) (by omega)
      (by simpa using ok.block) ok.held
    rw [hm']
    rw [put_restore] at hM'
    dsimp only
    obtain ⟨s1, -, s2⟩ := List.pairwise_append.1 hs
    by_cases e : x.uid = u
    · rw [if_pos e]
      have et : (vs ++ [x]).takeWhile (fun w => w.uid != u) = vs := by
        rw [List.takeWhile_append_of_pos]
        · rw [List.takeWhile_cons_of_neg (by simp [e]), List.append_nil]
        · intro w hw
          have := s2 w hw x (by simp)
          simp; omega
      rw [et]
      exact ⟨m', rfl, hM'⟩
    · rw [if_neg e]
      have hu' : vs.any (fun w => w.uid == u) = true := by
        rw [List.any_append] at hu
        simpa [e] using hu
      have et : (vs ++ [x]).takeWhile (fun w => w.uid != u) = vs.takeWhile (fun w => w.uid != u) :=
        takeWhile_any vs [x] u hu'
      rw [et]
      exact ih vs m' (by simpa using hl) hM' (fun w hw => hok w (by simp [hw])) s1 hu'

theorem drop_eq {s t} (r : Rep s t) {c u : Nat} (hc : c < t.n)
    (hu : (t.caches c).writes.any (fun w => w.uid == u) = true) :
    ∃ s', drop s c u = some s' ∧
      Rep s' (t.set c { t.caches c with writes := (t.caches c).writes.takeWhile fun w => w.uid != u }) := by
  have R := r.caches c hc
  obtain ⟨m', h1, h2⟩ := dropLoop_eq u _ (t.caches c).writes (s.caches c).mem rfl R.m R.ok R.sorted hu
  unfold drop
  dsimp only
  rw [R.writes, report_any_uid, hu, if_neg (by simp), h1]
  refine ⟨_, rfl, ?_⟩
  apply r.set
  have hsub := List.takeWhile_sublist (fun w : SW => w.uid != u) (l := (t.caches c).writes)
  exact ⟨h2, List.reverse_reverse _, R.uid, fun w hw => R.ok w (hsub.subset hw), R.sorted.sublist hsub,
    fun w hw => R.le w (hsub.subset hw)⟩

/-! ### Poking -/

theorem poke_eq {s t} (r : Rep s t) {c a : Nat} {d : Bytes} (hc : c < t.n) (hf : a + d.length ≤ t.total)
    (hk : 0 < d.length) (hb : a % t.bs + d.length ≤ t.bs) (hp : ∀ j, j < d.length → t.pokeable c (a + j)) :
    ∃ s', poke_ s c a d = some (s', true) ∧ Rep s' { t with mem := put t.mem a d } := by
  have R := r.caches c hc
  have hlt := total_lt r
  have h0 := r.bs0
  have hh : (t.caches c).held (a / t.bs) = true := (hp 0 hk).1
  have hm : pokeMiss s c a = some (s, (s.caches c).mem) := by
    unfold pokeMiss
    rw [missing_eq R.m (by omega), hh]
    rfl
  unfold poke_
  dsimp only
  rw [hm, Option.bind_some]
  obtain ⟨m', hm', hM'⟩ := write_held R.m (a := a) (d := d) (by omega) hb hh
  rw [hm']
  dsimp only
  unfold Sys.downPoke
  have hw : (s.set c ⟨m', (s.caches c).writes, (s.caches c).uid⟩).dnode.inWindow a d.length = true :=
    fits_dnode r ⟨hk, by omega⟩ hf
  rw [if_pos hw]
  refine ⟨_, rfl, ⟨r.cfg.1, r.cfg.2, r.cfg.3, r.cfg.4, r.cfg.5, r.cfg.6, r.cfg.7⟩, r.bs, r.total, r.wm, ?_, r.n, ?_⟩
  · show put s.down a d = put t.mem a d
    rw [r.mem]
  · intro e he
    show CRep t.bs t.total (put t.mem a d) (upd s.caches c ⟨m', (s.caches c).writes, (s.caches c).uid⟩ e) (t.caches e)
    by_cases ec : e = c
    · subst ec
      rw [upd_same]
      obtain ⟨q1, q2⟩ := put_uncovered (t.caches e).writes d t.mem a (fun j hj => (hp j hj).2.1)
      exact ⟨by rw [q2]; exact hM', by rw [q1]; exact R.writes, R.uid, R.ok, R.sorted, R.le⟩
    · rw [upd_other _ _ ec]
      have E := r.caches e he
      obtain ⟨q1, q2⟩ := put_uncovered (t.caches e).writes d t.mem a
        (fun j hj => E.unheld h0 ((hp j hj).2.2 e he ec))
      refine ⟨?_, by rw [q1]; exact E.writes, E.uid, E.ok, E.sorted, E.le⟩
      apply E.m.congr
      intro x hx
      rw [q2]
      apply (put_out _).symm
      rintro ⟨x1, x2⟩
      have := (hp (x - a) (by omega)).2.2 e he ec
      rw [show a + (x - a) = x by omega, hx] at this
      cases this

theorem pokeLoop_eq {c : Nat} :
    ∀ (fuel : Nat) (s : Sys) (t : Spec) (a stop : Nat) (d : Bytes), Rep s t → c < t.n → a < stop → stop ≤ t.total →
      stop - a < fuel → d.length = stop - a → (∀ j, j < d.length → t.pokeable c (a + j)) →
      ∃ s', pokeLoop s.node (fun s a bs => poke_ s c a bs) fuel s a stop d = some (s', true) ∧
        Rep s' { t with mem := put t.mem a d } := by
  intro fuel
  induction fuel with
  | zero => intro s t a stop d _ _ _ _ h; omega
  | succ fuel ih =>
    intro s t a stop d r hc h1 h2 h3 hd hp
    have h0 := r.bs0
    have hlt := total_lt r
    have ha : a < t.total := by omega
    unfold pokeLoop
    dsimp only
    rw [show s.node.bs = s.bs from rfl, blockEnd_node r ha]
    have e := Nat.div_add_mod a t.bs
    rw [Nat.mul_comm] at e
    have hm := Nat.mod_lt a h0
    have he : (a / t.bs + 1) * t.bs = a / t.bs * t.bs + t.bs := by rw [Nat.add_mul]; omega
    by_cases hs : (a / t.bs + 1) * t.bs ≥ stop
    · rw [if_pos hs, MemIf.w64_sub (by omega) (by omega), ← hd, List.take_length]
      exact poke_eq r hc (by omega) (by omega) (by omega) hp
    · rw [if_neg hs, MemIf.w64_sub (by omega) (by omega)]
      have hl : (d.take ((a / t.bs + 1) * t.bs - a)).length = (a / t.bs + 1) * t.bs - a := by
        rw [List.length_take]; omega
      obtain ⟨s1, g1, g2⟩ := poke_eq r hc (a := a) (d := d.take ((a / t.bs + 1) * t.bs - a)) (by omega) (by omega) (by omega)
        (fun j hj => hp j (by omega))
      rw [g1]
      dsimp only
      have hl2 : (d.drop ((a / t.bs + 1) * t.bs - a)).length = stop - (a / t.bs + 1) * t.bs := by
        rw [List.length_drop]; omega
      obtain ⟨s2, g3, g4⟩ := ih s1 _ ((a / t.bs + 1) * t.bs) stop (d.drop ((a / t.bs + 1) * t.bs - a)) g2 hc (by omega) h2 (by omega)
        hl2 (fun j hj => by
          have := hp ((a / t.bs + 1) * t.bs - a + j) (by omega)
          rw [show a + ((a / t.bs + 1) * t.bs - a + j) = (a / t.bs + 1) * t.bs + j by omega] at this
          exact this)
      have en : s1.node = s.node := by
        unfold Sys.node
        rw [g2.bs, g2.total, r.bs, r.total]
      rw [en] at g3
      refine ⟨s2, g3, ?_⟩
      have : put (put t.mem a (d.take ((a / t.bs + 1) * t.bs - a))) ((a / t.bs + 1) * t.bs) (d.drop ((a / t.bs + 1) * t.bs - a)) =
          put t.mem a d := by
        conv => rhs; rw [← List.take_append_drop ((a / t.bs + 1) * t.bs - a) d, put_append]
        rw [hl, show a + ((a / t.bs + 1) * t.bs - a) = (a / t.bs + 1) * t.bs by omega]
      rw [← this]
      exact g4

end Sparta.CachedMem
