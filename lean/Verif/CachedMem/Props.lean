import Verif.CachedMem.Lemmas5

/-!
# Properties of cached memory (C106 - C111)

`Reach s t`: `s` is the state of some caches after calls that are allowed (see `Spec.legal`): accesses have a size
and end below 2^64, pokes only where no copy of the byte is elsewhere, commits and writes of devices only when the other caches
hold the block. With one cache and without pokes and devices everything with a size is allowed (`C106_single`).
-/

namespace Sparta.CachedMem

open Sparta.MemoryMap (wordSize)
open Sparta.MemIf (Bytes)

/-- the byte at an address that a cache should show: of its newest pending write, or else of the memory -/
def shown (s : Sys) (c x : Nat) : UInt8 := newest (s.caches c).writes x (s.down x)

theorem see_shown {s t} (r : Rep s t) {c : Nat} (hc : c < t.n) (x : Nat) : t.see c x = shown s c x := by
  unfold shown Spec.see
  rw [(r.caches c hc).writes, r.mem]
  exact view_newest _ _ x _ _ rfl

theorem bytes_shown {s t} (r : Rep s t) {c : Nat} (hc : c < t.n) (a k : Nat) :
    bytes (t.see c) a k = (List.range k).map fun j => shown s c (a + j) :=
  List.map_congr_left fun j _ => see_shown r hc (a + j)

theorem node_n {s t} (r : Rep s t) {c : Nat} (hc : c < s.n) : c < t.n := by rw [← r.n]; exact hc

/-! ### C106: a cache shows memory with its own pending writes on top -/

/-- **C106** A peek inside the cached range returns, byte by byte, the newest pending write of this cache over the
byte, or else the memory; outside it returns false. -/
theorem C106_peek {s t} (h : Reach s t) {c a k : Nat} (hc : c < s.n) (hs : sized a k) :
    step s (.tryPeek c a k) =
      (s, if a + k ≤ s.total then .data ((List.range k).map fun j => shown s c (a + j)) else .no) := by
  have r := h.rep
  have hc' := node_n r hc
  unfold step
  dsimp only
  rw [tryPeek_eq r hc' hs, bytes_shown r hc', Spec.fits, ← r.total]
  by_cases hf : a + k ≤ s.total
  · rw [if_pos (decide_eq_true hf), if_pos hf]
  · rw [if_neg (by simpa using hf), if_neg hf]

/-- **C106** A read returns the same, and false also when the access crosses a block. -/
theorem C106_read {s t} (h : Reach s t) {c a k : Nat} (hc : c < s.n) (hs : sized a k) :
    step s (.tryRead c a k) =
      (s, if a / s.bs = (a + k - 1) / s.bs ∧ a + k ≤ s.total then .data ((List.range k).map fun j => shown s c (a + j))
        else .no) := by
  have r := h.rep
  have hc' := node_n r hc
  unfold step
  dsimp only
  rw [tryRead_eq r hc' hs, bytes_shown r hc', Spec.fits, Spec.oneBlock, ← r.total, ← r.bs]
  by_cases hf : a / s.bs = (a + k - 1) / s.bs ∧ a + k ≤ s.total
  · rw [if_pos (by simpa using hf), if_pos hf]
  · rw [if_neg (by simpa using hf), if_neg hf]

/-- the accesses of one cache: all but pokes, and no devices -/
def single : Op → Prop
  | .tryRead c a k => c = 0 ∧ sized a k
  | .tryPeek c a k => c = 0 ∧ sized a k
  | .tryWrite c a bs => c = 0 ∧ sized a bs.length
  | .tryPoke .. => False
  | .commit c _ => c = 0
  | .drop c _ => c = 0
  | .pending c => c = 0
  | .pendingFor c _ => c = 0
  | .last c => c = 0
  | .device .. => False

theorem step_n (t : Spec) (o : Op) : (t.step o).1.n = t.n := by
  cases o <;> unfold Spec.step <;> dsimp only
  case tryWrite c a bs => split <;> (try split) <;> rfl
  case tryPoke c a bs => split <;> rfl
  case commit c u => split <;> (try split) <;> rfl
  case drop c u => split <;> rfl
  case last c => split <;> rfl
  case device a bs => split <;> rfl

/-- **C106** With one cache, without pokes and devices, every history of accesses with a size is allowed. -/
theorem C106_single {lsb total wm dbs dsize : Nat} {ids : Nat → Nat} {mem : Nat → UInt8} {s : Sys}
    (h : init lsb total wm dbs dsize 1 ids mem = some s) (hw : total ≤ 2 ^ 63) (hd : total ≤ dsize)
    (hb : 2 ^ lsb ∣ dbs) (os : List Op) (ho : ∀ o ∈ os, single o) : ∃ t, Reach (runOps step s os).1 t := by
  have key : ∀ (os : List Op) (s : Sys) (t : Spec), Reach s t → t.n = 1 → (∀ o ∈ os, single o) →
      ∃ t, Reach (runOps step s os).1 t := by
    intro os
    induction os with
    | nil => intro s t r _ _; exact ⟨t, r⟩
    | cons o os ih =>
      intro s t r hn ho
      have hl : t.legal o := by
        have := ho o (List.mem_cons_self ..)
        cases o with
        | tryRead c a k => exact ⟨by rw [hn, this.1]; omega, this.2⟩
        | tryPeek c a k => exact ⟨by rw [hn, this.1]; omega, this.2⟩
        | tryWrite c a k => exact ⟨by rw [hn, this.1]; omega, this.2⟩
        | tryPoke c a k => exact this.elim
        | device a k => exact this.elim
        | commit c u =>
          obtain rfl : c = 0 := this
          refine ⟨by rw [hn]; omega, ?_⟩
          intro w _ d hd hne
          rw [hn] at hd
          exact absurd (by rw [show d = 0 by omega]) hne
        | drop c u => show c < t.n; rw [hn, show c = 0 from this]; omega
        | pending c => show c < t.n; rw [hn, show c = 0 from this]; omega
        | pendingFor c a => show c < t.n; rw [hn, show c = 0 from this]; omega
        | last c => show c < t.n; rw [hn, show c = 0 from this]; omega
      exact ih _ _ (r.step o hl) ((step_n t o).trans hn) (fun o h => ho o (List.mem_cons_of_mem _ h))
  exact key os s _ (.init h hw hd hb) rfl ho

/-! ### C107: only commits change memory, in the order of the writes -/

/-- bytes assigned over others -/
def assign (f : Nat → UInt8) (a : Nat) (bs : Bytes) (x : Nat) : UInt8 :=
  if a ≤ x ∧ x < a + bs.length then bs.getD (x - a) 0 else f x

/-- memory after a call -/
def memoryAfter (s : Sys) : Op → Nat → UInt8
  | .commit c u =>
    match (s.caches c).writes with
    | [] => s.down
    | w :: _ => if w.uid = u then assign s.down w.addr w.data else s.down
  | .device a bs => assign s.down a bs
  | .tryPoke _ a bs => if a + bs.length ≤ s.total then assign s.down a bs else s.down
  | _ => s.down

/-- **C107** What each call does to memory: a commit that succeeds writes the bytes of the oldest pending write of its
cache; a device and a poke write their bytes; nothing else changes memory. -/
theorem C107_memory {s t} (h : Reach s t) (o : Op) (hl : t.legal o) :
    (step s o).1.down = memoryAfter s o := by
  have r := h.rep
  have r' := rep_step r o hl
  rw [r'.1.mem]
  unfold memoryAfter
  cases o with
  | tryRead c a k => unfold Spec.step; exact r.mem.symm
  | tryPeek c a k => unfold Spec.step; exact r.mem.symm
  | pending c => unfold Spec.step; exact r.mem.symm
  | pendingFor c a => unfold Spec.step; exact r.mem.symm
  | last c => unfold Spec.step; dsimp only; split <;> exact r.mem.symm
  | tryWrite c a bs => unfold Spec.step; dsimp only; split <;> (try split) <;> exact r.mem.symm
  | drop c u => unfold Spec.step; dsimp only; split <;> exact r.mem.symm
  | tryPoke c a bs =>
    unfold Spec.step Spec.fits
    dsimp only
    rw [← r.total, r.mem]
    by_cases hf : a + bs.length ≤ s.total
    · rw [if_pos (decide_eq_true hf), if_pos hf]; rfl
    · rw [if_neg (by simpa using hf), if_neg hf]
  | device a bs =>
    unfold Spec.step
    dsimp only
    rw [if_pos hl.2.1, r.mem]; rfl
  | commit c u =>
    unfold Spec.step
    dsimp only
    rw [(r.caches c hl.1).writes, r.mem]
    cases (t.caches c).writes with
    | nil => rfl
    | cons w ws =>
      show (if w.uid = u then _ else _ : Spec × Res).1.mem = if w.uid = u then _ else _
      by_cases e : w.uid = u
      · rw [if_pos e, if_pos e]; rfl
      · rw [if_neg e, if_neg e]

/-- **C107** The results of the calls that change pending writes: a write succeeds unless it crosses a block or is
outside (false), or the watermark is reached (exception); a commit succeeds exactly for the oldest pending write, a
drop exactly for a pending write, otherwise there is an exception. -/
theorem C107_results {s t} (h : Reach s t) {c : Nat} (hc : c < s.n) :
    (∀ a bs, sized a bs.length → (step s (.tryWrite c a bs)).2 =
      if a / s.bs = (a + bs.length - 1) / s.bs ∧ a + bs.length ≤ s.total then
        if (keys s c).length = s.wm then .threw else .yes
      else .no) ∧
    (∀ u, t.legal (.commit c u) → (step s (.commit c u)).2 = if (keys s c).head?.map (·.1) = some u then .yes else .threw) ∧
    (∀ u, (step s (.drop c u)).2 = if u ∈ (keys s c).map (·.1) then .yes else .threw) := by
  have r := h.rep
  have hc' := node_n r hc
  have hk := r.keys hc'
  refine ⟨?_, ?_, ?_⟩
  · intro a bs hs
    rw [(rep_step r (.tryWrite c a bs) ⟨hc', hs⟩).2, hk]
    unfold Spec.step Spec.oneBlock Spec.fits
    dsimp only
    rw [← r.bs, ← r.total]
    have el : (skeys (t.caches c).writes).length = (t.caches c).writes.length := List.length_map ..
    by_cases hf : a / s.bs = (a + bs.length - 1) / s.bs ∧ a + bs.length ≤ s.total
    · rw [if_pos (by simpa using hf), if_pos hf, el, r.wm]
      split <;> rfl
    · rw [if_neg (by simpa using hf), if_neg hf]
  · intro u hl
    rw [(rep_step r _ hl).2, hk]
    unfold Spec.step
    dsimp only
    cases (t.caches c).writes with
    | nil => rfl
    | cons w ws =>
      show (if w.uid = u then _ else _ : Spec × Res).2 = if some w.uid = some u then _ else _
      by_cases e : w.uid = u
      · rw [if_pos e, if_pos (by rw [e])]
      · rw [if_neg e, if_neg (by simpa using e)]
  · intro u
    rw [(rep_step r (.drop c u) hc').2, hk]
    unfold Spec.step
    dsimp only
    have e : ((t.caches c).writes.any (fun w => w.uid == u) = true) ↔ u ∈ (skeys (t.caches c).writes).map (·.1) := by
      rw [List.any_eq_true]
      unfold skeys
      simp [List.map_map]
    by_cases hu : (t.caches c).writes.any (fun w => w.uid == u) = true
    · rw [if_pos hu, if_pos (e.1 hu)]
    · rw [if_neg hu, if_neg (fun hh => hu (e.2 hh))]

/-- pending writes of cache `d` after a call with a result -/
def pendingAfter (s : Sys) (d : Nat) (res : Res) : Op → List (Nat × Nat × Bytes)
  | .tryWrite c a bs => if d = c ∧ res = .yes then keys s d ++ [((s.caches d).uid + 1, a, bs)] else keys s d
  | .commit c _ => if d = c ∧ res = .yes then (keys s d).tail else keys s d
  | .drop c u => if d = c ∧ res = .yes then (keys s d).takeWhile fun w => w.1 != u else keys s d
  | _ => keys s d

/-- **C107** What each call does to the pending writes of every cache: a write that succeeds adds itself at the end with the
next identity, a commit that succeeds removes the oldest, a drop that succeeds removes the write and all newer ones; other
caches are not affected. -/
theorem C107_pending {s t} (h : Reach s t) (o : Op) (hl : t.legal o) {d : Nat} (hd : d < s.n) :
    keys (step s o).1 d = pendingAfter s d (step s o).2 o := by
  have r := h.rep
  have r' := rep_step r o hl
  have hd' := node_n r hd
  rw [r'.1.keys (by rw [step_n]; exact hd'), r'.2]
  unfold pendingAfter
  rw [r.keys hd']
  cases o with
  | tryRead c a k => rfl
  | tryPeek c a k => rfl
  | pending c => rfl
  | pendingFor c a => rfl
  | last c =>
    unfold Spec.step
    dsimp only
    split <;> rfl
  | tryPoke c a bs =>
    unfold Spec.step
    dsimp only
    split <;> rfl
  | device a bs =>
    unfold Spec.step
    dsimp only
    split <;> rfl
  | tryWrite c a bs =>
    unfold Spec.step
    dsimp only
    split
    · split
      · rw [if_neg (fun hh => nomatch hh.2)]
      · by_cases e : d = c
        · rw [if_pos ⟨e, rfl⟩, (r.caches d hd').uid, e]
          show skeys (upd t.caches c _ c).writes = _
          rw [upd_same]
          exact List.map_append ..
        · rw [if_neg (fun hh => e hh.1)]
          show skeys (upd t.caches c _ d).writes = _
          rw [upd_other _ _ e]
    · rw [if_neg (fun hh => nomatch hh.2)]
  | commit c u =>
    cases hw : (t.caches c).writes with
    | nil =>
      have hst : t.step (.commit c u) = (t, .threw) := by unfold Spec.step; dsimp only; rw [hw]
      rw [hst]
      dsimp only
      rw [if_neg (fun hh => nomatch hh.2)]
    | cons w ws =>
      by_cases eu : w.uid = u
      · have hst : t.step (.commit c u) =
            ({ t.set c { t.caches c with writes := ws } with mem := put t.mem w.addr w.data }, .yes) := by
          unfold Spec.step; dsimp only; rw [hw]; dsimp only; rw [if_pos eu]
        rw [hst]
        dsimp only
        by_cases e : d = c
        · rw [if_pos ⟨e, rfl⟩, e, hw]
          show skeys (upd t.caches c _ c).writes = _
          rw [upd_same]; rfl
        · rw [if_neg (fun hh => e hh.1)]
          show skeys (upd t.caches c _ d).writes = _
          rw [upd_other _ _ e]
      · have hst : t.step (.commit c u) = (t, .threw) := by
          unfold Spec.step; dsimp only; rw [hw]; dsimp only; rw [if_neg eu]
        rw [hst]
        dsimp only
        rw [if_neg (fun hh => nomatch hh.2)]
  | drop c u =>
    unfold Spec.step
    dsimp only
    split
    · by_cases e : d = c
      · rw [if_pos ⟨e, rfl⟩, e]
        show skeys (upd t.caches c _ c).writes = _
        rw [upd_same]
        unfold skeys
        rw [List.takeWhile_map]
        rfl
      · rw [if_neg (fun hh => e hh.1)]
        show skeys (upd t.caches c _ d).writes = _
        rw [upd_other _ _ e]
    · rw [if_neg (fun hh => nomatch hh.2)]

/-! ### C108: dropping a write restores -/

/-- what a peek of one byte returns -/
def look (s : Sys) (c x : Nat) : Res := (step s (.tryPeek c x 1)).2

theorem look_eq {s t} (h : Reach s t) {c x : Nat} (hc : c < s.n) (hx : x < s.total) : look s c x = .data [shown s c x] := by
  have hlt := h.rep.cfg.lt
  unfold look
  rw [C106_peek h hc ⟨by omega, by omega⟩, if_pos (by omega)]
  rfl

theorem shown_keys {s s' : Sys} {c x : Nat} (hk : keys s' c = keys s c) (hd : s'.down x = s.down x) :
    shown s' c x = shown s c x := by
  unfold shown
  rw [hd]
  exact newest_keys hk x _

/-- **C108** A write and all newer writes are dropped: the cache shows memory with the older writes on top, other caches and
memory do not change. -/
theorem C108_drop {s t} (h : Reach s t) {c u : Nat} (hc : c < s.n) (hu : u ∈ (keys s c).map (·.1)) {d x : Nat}
    (hd : d < s.n) (hx : x < s.total) :
    look (step s (.drop c u)).1 d x =
      if d = c then .data [newest ((s.caches c).writes.takeWhile fun w => w.uid != u) x (s.down x)] else look s d x := by
  have r := h.rep
  have hc' := node_n r hc
  have h' := h.step (.drop c u) hc'
  have hn : (step s (.drop c u)).1.n = s.n := by rw [h'.rep.n, step_n, r.n]
  have ht : (step s (.drop c u)).1.total = s.total := by
    rw [h'.rep.total, r.total]
    unfold Spec.step; dsimp only; split <;> rfl
  have hdn := C107_memory h (.drop c u) hc'
  have hk := C107_pending h (.drop c u) hc' hd
  have hy : (step s (.drop c u)).2 = .yes := by rw [(C107_results h hc).2.2 u, if_pos hu]
  rw [look_eq h' (by rw [hn]; exact hd) (by rw [ht]; exact hx)]
  dsimp only [memoryAfter, pendingAfter] at hdn hk
  by_cases e : d = c
  · rw [if_pos ⟨e, hy⟩] at hk
    rw [if_pos e]
    unfold shown
    rw [hdn]
    subst e
    congr 2
    apply newest_keys
    rw [show (List.map (fun w : W => (w.uid, w.addr, w.data)) ((step s (Op.drop d u)).1.caches d).writes) = _ from hk]
    unfold keys
    rw [List.takeWhile_map]
    rfl
  · rw [if_neg (fun hh => e hh.1)] at hk
    rw [if_neg e, look_eq h hd hx, shown_keys hk (by rw [hdn])]

/-- **C108** Each pending write is reported with the bytes that were under it: memory with the older pending writes on top. -/
theorem C108_previous {s t} (h : Reach s t) {c i : Nat} (hc : c < s.n) {w : W} (hw : (s.caches c).writes[i]? = some w) :
    w.prev = (List.range w.data.length).map fun j =>
      newest ((s.caches c).writes.take i) (w.addr + j) (s.down (w.addr + j)) := by
  have r := h.rep
  have hc' := node_n r hc
  rw [(r.caches c hc').writes] at hw ⊢
  rw [report_get] at hw
  obtain ⟨v, hv, rfl⟩ := Option.map_eq_some_iff.1 hw
  show bytes (view t.mem _) v.addr v.data.length = _
  unfold bytes
  apply List.map_congr_left
  intro j _
  rw [report_take, r.mem]
  exact view_newest _ _ _ _ _ rfl

/-- calls that only write through cache `c` -/
def onlyWrites (c : Nat) : Op → Prop
  | .tryWrite c' _ _ => c' = c
  | _ => False

theorem writes_run {c : Nat} (os : List Op) : ∀ {s t}, Reach s t → c < s.n →
    (∀ o ∈ os, onlyWrites c o) → legalOps Spec.step Spec.legal t os →
    ∃ t', Reach (runOps step s os).1 t' ∧ (runOps step s os).1.n = s.n ∧ (runOps step s os).1.total = s.total ∧
      (runOps step s os).1.down = s.down ∧ (∀ d, d < s.n → d ≠ c → keys (runOps step s os).1 d = keys s d) ∧
      ∃ l, keys (runOps step s os).1 c = keys s c ++ l ∧ (∀ v ∈ l, (s.caches c).uid < v.1) := by
  induction os with
  | nil => intro s t r _ _ _; exact ⟨t, r, rfl, rfl, rfl, fun _ _ _ => rfl, [], (List.append_nil _).symm, fun _ h => nomatch h⟩
  | cons o os ih =>
    intro s t r hc ho hl
    have ho1 := ho o (List.mem_cons_self ..)
    cases o with
    | tryWrite c' a bs =>
      obtain rfl : c' = c := ho1
      have h1 := r.step _ hl.1
      have hdn := C107_memory r _ hl.1
      have hn : (step s (.tryWrite c' a bs)).1.n = s.n := by rw [h1.rep.n, step_n, r.rep.n]
      have ht : (step s (.tryWrite c' a bs)).1.total = s.total := by
        rw [h1.rep.total, r.rep.total]
        unfold Spec.step; dsimp only; split <;> (try split) <;> rfl
      have hu : (s.caches c').uid ≤ ((step s (.tryWrite c' a bs)).1.caches c').uid := by
        rcases (step_K s (.tryWrite c' a bs)).2 c' with h | ⟨k, -, h⟩ | ⟨_, _, -, h⟩
        · exact Nat.le_of_eq (congrArg Prod.snd h).symm
        · exact Nat.le_of_eq (congrArg Prod.snd h).symm
        · rw [show ((step s (.tryWrite c' a bs)).1.caches c').uid = _ from congrArg Prod.snd h]; exact Nat.le_succ _
      obtain ⟨t', g1, g2, g3, g4, g5, l, g6, g7⟩ := ih h1 (by rw [hn]; exact hc) (fun o h => ho o (List.mem_cons_of_mem _ h)) hl.2
      have hkc := C107_pending r _ hl.1 hc
      dsimp only [memoryAfter, pendingAfter] at hkc hdn
      refine ⟨t', g1, g2.trans hn, g3.trans ht, g4.trans hdn, ?_, ?_⟩
      · intro d hd hne
        have hk := C107_pending r _ hl.1 hd
        dsimp only [pendingAfter] at hk
        rw [if_neg (fun hh => hne hh.1)] at hk
        exact (g5 d (by rw [hn]; exact hd) hne).trans hk
      · by_cases hy : (step s (.tryWrite c' a bs)).2 = .yes
        · rw [if_pos ⟨rfl, hy⟩] at hkc
          refine ⟨((s.caches c').uid + 1, a, bs) :: l, ?_, ?_⟩
          · refine g6.trans ?_
            rw [hkc, List.append_assoc]; rfl
          · intro v hv
            rcases List.mem_cons.1 hv with rfl | hv
            · exact Nat.lt_succ_self _
            · exact Nat.lt_of_le_of_lt hu (g7 v hv)
        · rw [if_neg (fun hh => hy hh.2)] at hkc
          refine ⟨l, g6.trans (by rw [hkc]), fun v hv => Nat.lt_of_le_of_lt hu (g7 v hv)⟩
    | _ => exact ho1.elim

/-- writes are undone by the drop of the first -/
theorem undo_aux {s s1 : Sys} {t t1 : Spec} (h : Reach s t) (h1 : Reach s1 t1) {c u : Nat} {l : List (Nat × Nat × Bytes)}
    (hn : s1.n = s.n) (ht : s1.total = s.total) (hm : s1.down = s.down)
    (hk : ∀ d, d < s.n → d ≠ c → keys s1 d = keys s d) (hkc : keys s1 c = keys s c ++ l) (hc : c < s.n)
    (hu : ∀ v ∈ keys s c, v.1 ≠ u) (hl : ∃ v l', l = v :: l' ∧ v.1 = u) {d x : Nat} (hd : d < s.n) (hx : x < s.total) :
    look (step s1 (.drop c u)).1 d x = look s d x ∧ keys (step s1 (.drop c u)).1 d = keys s d := by
  obtain ⟨v, l', rfl, rfl⟩ := hl
  have hc1 : c < s1.n := by rw [hn]; exact hc
  have hd1 : d < s1.n := by rw [hn]; exact hd
  have hx1 : x < s1.total := by rw [ht]; exact hx
  have hmem : v.1 ∈ (keys s1 c).map (·.1) := by rw [hkc]; simp
  have hy : (step s1 (.drop c v.1)).2 = .yes := by rw [(C107_results h1 hc1).2.2, if_pos hmem]
  have htw : (keys s1 c).takeWhile (fun w => w.1 != v.1) = keys s c := by
    rw [hkc, List.takeWhile_append_of_pos]
    · rw [List.takeWhile_cons_of_neg (by simp), List.append_nil]
    · intro w hw
      simpa using hu w hw
  have hkd := C107_pending h1 (.drop c v.1) (node_n h1.rep hc1) hd1
  dsimp only [pendingAfter] at hkd
  have hkeys : keys (step s1 (.drop c v.1)).1 d = keys s d := by
    rw [hkd]
    by_cases e : d = c
    · rw [if_pos ⟨e, hy⟩, e, htw]
    · rw [if_neg (fun hh => e hh.1)]
      exact hk d hd e
  refine ⟨?_, hkeys⟩
  have h2 := h1.step (.drop c v.1) (node_n h1.rep hc1)
  have hn2 : (step s1 (.drop c v.1)).1.n = s.n := by rw [h2.rep.n, step_n, ← h1.rep.n, hn]
  have ht2 : (step s1 (.drop c v.1)).1.total = s.total := by
    rw [h2.rep.total]
    have : (t1.step (.drop c v.1)).1.total = t1.total := by
      unfold Spec.step; dsimp only; split <;> rfl
    rw [this, ← h1.rep.total, ht]
  have hdn := C107_memory h1 (.drop c v.1) (node_n h1.rep hc1)
  dsimp only [memoryAfter] at hdn
  rw [look_eq h2 (by rw [hn2]; exact hd) (by rw [ht2]; exact hx), look_eq h hd hx,
    shown_keys hkeys (by rw [hdn, hm])]

/-- **C108** A cache does any writes (the first of them succeeds); when the first is dropped, all caches show what they showed
before the writes, and the pending writes are those of before. -/
theorem C108_undo {s t} (h : Reach s t) {c a : Nat} {bs : Bytes} {os : List Op} (hc : c < s.n)
    (ho : ∀ o ∈ os, onlyWrites c o) (hl : legalOps Spec.step Spec.legal t (.tryWrite c a bs :: os))
    (hy : (step s (.tryWrite c a bs)).2 = .yes) {d x : Nat} (hd : d < s.n) (hx : x < s.total) :
    look (step (runOps step s (.tryWrite c a bs :: os)).1 (.drop c ((s.caches c).uid + 1))).1 d x = look s d x ∧
    keys (step (runOps step s (.tryWrite c a bs :: os)).1 (.drop c ((s.caches c).uid + 1))).1 d = keys s d := by
  have r := h.rep
  have ho' : ∀ o ∈ (.tryWrite c a bs :: os), onlyWrites c o := by
    intro o h
    rcases List.mem_cons.1 h with rfl | h
    · rfl
    · exact ho o h
  obtain ⟨t', g1, g2, g3, g4, g5, -⟩ := writes_run _ h hc ho' hl
  have h1 := h.step _ hl.1
  have hn1 : (step s (.tryWrite c a bs)).1.n = s.n := by rw [h1.rep.n, step_n, r.n]
  obtain ⟨-, -, -, -, -, -, l, g6, -⟩ := writes_run os h1 (by rw [hn1]; exact hc) ho hl.2
  have hk1 := C107_pending h _ hl.1 hc
  dsimp only [pendingAfter] at hk1
  rw [if_pos ⟨rfl, hy⟩] at hk1
  have er : (runOps step s (.tryWrite c a bs :: os)).1 = (runOps step (step s (.tryWrite c a bs)).1 os).1 := rfl
  rw [← er, hk1, List.append_assoc] at g6
  generalize (runOps step s (.tryWrite c a bs :: os)).1 = s1 at g1 g2 g3 g4 g5 g6
  refine undo_aux h g1 g2 g3 g4 g5 g6 hc ?_ ⟨_, _, rfl, rfl⟩ hd hx
  intro v hv
  rw [r.keys (node_n r hc)] at hv
  obtain ⟨w, hw, rfl⟩ := List.mem_map.1 hv
  have := (r.caches c (node_n r hc)).le w hw
  rw [(r.caches c (node_n r hc)).uid]
  exact Nat.ne_of_lt (Nat.lt_succ_of_le this)

/-! ### C109: the other caches see a commit -/

/-- a pending write of the cache contains the address -/
def owns (s : Sys) (c x : Nat) : Prop := ∃ w ∈ (s.caches c).writes, w.addr ≤ x ∧ x < w.addr + w.data.length

theorem newest_owned {ws : List W} {x : Nat} (h : ∃ w ∈ ws, w.addr ≤ x ∧ x < w.addr + w.data.length) (b b' : UInt8) :
    newest ws x b = newest ws x b' := by
  unfold newest
  cases hf : ws.reverse.find? fun w => decide (w.addr ≤ x) && decide (x < w.addr + w.data.length) with
  | some w => rfl
  | none =>
    obtain ⟨w, hw, h1, h2⟩ := h
    have := List.find?_eq_none.1 hf w (List.mem_reverse.2 hw)
    simp [h1, h2] at this

theorem newest_free {ws : List W} {x : Nat} (h : ¬ ∃ w ∈ ws, w.addr ≤ x ∧ x < w.addr + w.data.length) (b : UInt8) :
    newest ws x b = b := by
  unfold newest
  cases hf : ws.reverse.find? fun w => decide (w.addr ≤ x) && decide (x < w.addr + w.data.length) with
  | none => rfl
  | some w =>
    have h1 := List.find?_some hf
    have h2 := List.mem_of_find?_eq_some hf
    rw [List.mem_reverse] at h2
    refine absurd ⟨w, h2, ?_⟩ h
    simpa using h1

/-- **C109** (partial: all other caches must hold the block, see `C109_commit_violated`) A cache commits its oldest write. The
cache itself shows what it showed; every other cache shows the new bytes, except where it has a pending write of its own,
where it shows what it showed. -/
theorem C109_commit_partial {s t} (h : Reach s t) {c : Nat} {w : W} {ws : List W} (hc : c < s.n)
    (hw : (s.caches c).writes = w :: ws) (hl : t.legal (.commit c w.uid)) {d x : Nat} (hd : d < s.n) (hx : x < s.total) :
    (step s (.commit c w.uid)).2 = .yes ∧
    (d = c ∨ owns s d x → look (step s (.commit c w.uid)).1 d x = look s d x) ∧
    (d ≠ c → ¬ owns s d x → look (step s (.commit c w.uid)).1 d x =
      if w.addr ≤ x ∧ x < w.addr + w.data.length then .data [w.data.getD (x - w.addr) 0] else look s d x) := by
  have r := h.rep
  have h' := h.step _ hl
  have hy : (step s (.commit c w.uid)).2 = .yes := by
    rw [(C107_results h hc).2.1 _ hl, if_pos]
    unfold keys; rw [hw]; rfl
  have hn : (step s (.commit c w.uid)).1.n = s.n := by rw [h'.rep.n, step_n, r.n]
  have ht : (step s (.commit c w.uid)).1.total = s.total := by
    rw [h'.rep.total, r.total]
    unfold Spec.step; dsimp only; split <;> (try split) <;> rfl
  have hdn := C107_memory h _ hl
  dsimp only [memoryAfter] at hdn
  rw [hw] at hdn
  dsimp only at hdn
  rw [if_pos rfl] at hdn
  have hk := C107_pending h _ hl hd
  dsimp only [pendingAfter] at hk
  refine ⟨hy, ?_⟩
  rw [look_eq h' (by rw [hn]; exact hd) (by rw [ht]; exact hx), look_eq h hd hx]
  by_cases e : d = c
  · refine ⟨fun _ => ?_, fun hne => absurd e hne⟩
    have e1 := see_shown r (node_n r hd) x
    have e2 := see_shown h'.rep (node_n h'.rep (by rw [hn]; exact hd)) x
    rw [← e1, ← e2]
    have hc' := node_n r hc
    unfold Spec.see Spec.step
    subst e
    have hrep := (r.caches d hc').writes
    rw [hw] at hrep
    cases hws : (t.caches d).writes with
    | nil => rw [hws] at hrep; cases hrep
    | cons v vs =>
      rw [hws] at hrep
      have hv : v.uid = w.uid := by
        have := congrArg (fun l => l.head?.map (·.uid)) hrep
        exact (Option.some.inj this).symm
      dsimp only
      rw [hws]
      dsimp only
      rw [if_pos hv]
      show Res.data [view _ (upd t.caches d _ d).writes x] = _
      rw [upd_same]
      rfl
  · rw [if_neg (fun hh => e hh.1)] at hk
    have hs : ∀ b, newest ((step s (.commit c w.uid)).1.caches d).writes x b = newest (s.caches d).writes x b :=
      fun b => newest_keys hk x b
    unfold shown
    rw [hs, hdn]
    refine ⟨?_, ?_⟩
    · rintro (e' | ho)
      · exact absurd e' e
      · rw [newest_owned ho _ (s.down x)]
    · intro _ hno
      rw [newest_free hno, newest_free hno]
      unfold assign
      split <;> rfl

/-- **C109** (partial, as above) A device writes in one block: every cache shows the new bytes, except where it has a
pending write of its own. -/
theorem C109_device_partial {s t} (h : Reach s t) {a : Nat} {bs : Bytes} (hl : t.legal (.device a bs)) {d x : Nat}
    (hd : d < s.n) (hx : x < s.total) :
    (owns s d x → look (step s (.device a bs)).1 d x = look s d x) ∧
    (¬ owns s d x → look (step s (.device a bs)).1 d x =
      if a ≤ x ∧ x < a + bs.length then .data [bs.getD (x - a) 0] else look s d x) := by
  have r := h.rep
  have h' := h.step _ hl
  have hn : (step s (.device a bs)).1.n = s.n := by rw [h'.rep.n, step_n, r.n]
  have ht : (step s (.device a bs)).1.total = s.total := by
    rw [h'.rep.total, r.total]
    unfold Spec.step; dsimp only; split <;> rfl
  have hdn := C107_memory h _ hl
  have hk := C107_pending h _ hl hd
  dsimp only [memoryAfter, pendingAfter] at hdn hk
  have hs : ∀ b, newest ((step s (.device a bs)).1.caches d).writes x b = newest (s.caches d).writes x b :=
    fun b => newest_keys hk x b
  rw [look_eq h' (by rw [hn]; exact hd) (by rw [ht]; exact hx), look_eq h hd hx]
  unfold shown
  rw [hs, hdn]
  refine ⟨fun ho => by rw [newest_owned ho _ (s.down x)], fun hno => ?_⟩
  rw [newest_free hno, newest_free hno]
  unfold assign
  split <;> rfl

/-- memory for the examples: byte `x` is `x + 1` -/
def mem0 (x : Nat) : UInt8 := UInt8.ofNat (x + 1)

/-- **C109 is violated** when another cache does not hold the block: cache 0 writes one byte and commits; cache 1 showed the
byte next to it as 2, and now shows 0, though nobody wrote it and memory still has 2. -/
theorem C109_commit_violated :
    (init 2 16 8 4 16 2 id mem0).map (fun s => (runOps step s
      [.tryPeek 1 1 1, .tryWrite 0 0 [9], .commit 0 1, .tryPeek 1 0 1, .tryPeek 1 1 1, .tryPeek 0 1 1]).2) =
    some [.data [2], .yes, .yes, .data [9], .data [0], .data [2]] := by decide +kernel

/-- **C109 is violated** also for a device. -/
theorem C109_device_violated :
    (init 2 16 8 4 16 1 id mem0).map (fun s => (runOps step s
      [.tryPeek 0 1 1, .device 0 [9], .tryPeek 0 1 1]).2) = some [.data [2], .yes, .data [0]] := by decide +kernel

/-- **C109 is violated** for a device whose write crosses a block of the caches: without pending writes the merge is refused
with an exception; memory has blocks of 8 bytes. -/
theorem C109_cross_violated :
    (init 2 16 8 8 16 1 id mem0).map (fun s => (runOps step s [.device 2 [9, 9, 9, 9]]).2) = some [.threw] := by
  decide +kernel

/-- **C107 is violated** when the blocks of memory are smaller than those of the cache: the write is accepted and the commit
succeeds, but memory refuses the write, which is lost; the cache that committed it still shows it, the other one does not. -/
theorem C107_commit_violated :
    (init 2 16 8 2 16 2 id mem0).map (fun s => (runOps step s
      [.tryWrite 0 0 [7, 7, 7, 7], .commit 0 1, .tryPeek 0 0 4, .tryPeek 1 0 4]).2) =
    some [.yes, .yes, .data [7, 7, 7, 7], .data [1, 2, 3, 4]] := by decide +kernel

/-! ### C110: pending writes are exact -/

/-- **C110** In every history, whatever the calls: there are never more pending writes than the watermark, and they are listed in the
order of their identities, oldest first. -/
theorem C110_pending {lsb total wm dbs dsize n ids mem s} (h : init lsb total wm dbs dsize n ids mem = some s) (os : List Op)
    (c : Nat) : ∃ l, (step (runOps step s os).1 (.pending c)).2 = .writes l ∧ l.length ≤ wm ∧
      l.Pairwise fun v w => v.uid < w.uid := by
  obtain ⟨I, hw⟩ := inv_init h
  obtain ⟨J, hw'⟩ := inv_run os I
  refine ⟨_, rfl, ?_, ?_⟩
  · have := J.length c
    rwa [hw', hw] at this
  · have := J.sorted c
    unfold K at this
    rw [List.pairwise_map] at this
    exact this

/-- **C110** Two pending writes, of one cache or of two caches with different identities, have different identities, in a
history of fewer than 2^56 calls. -/
theorem C110_unique {lsb total wm dbs dsize n ids mem s} (h : init lsb total wm dbs dsize n ids mem = some s) (os : List Op)
    (hn : os.length < idUnit) {c d : Nat} (hne : ids c ≠ ids d) {v w : W} {l k : List W}
    (hv : (step (runOps step s os).1 (.pending c)).2 = .writes l) (hw : (step (runOps step s os).1 (.pending d)).2 = .writes k)
    (h1 : v ∈ l) (h2 : w ∈ k) : v.uid ≠ w.uid := by
  obtain ⟨I, -⟩ := inv_init h
  obtain ⟨J, -⟩ := inv_run os I
  obtain rfl : _ = l := by simpa [step] using hv
  obtain rfl : _ = k := by simpa [step] using hw
  have a1 := J.range c (v.uid, v.addr, v.data) (List.mem_map.2 ⟨v, h1, rfl⟩)
  have a2 := J.range d (w.uid, w.addr, w.data) (List.mem_map.2 ⟨w, h2, rfl⟩)
  have b1 := J.top c
  have b2 := J.top d
  dsimp only at a1 a2 b1 b2
  revert a1 a2 b1 b2 hn
  generalize idUnit = U
  intro hn a1 b1 a2 b2 e
  rcases Nat.lt_or_gt_of_ne hne with hlt | hlt
  · have := Nat.mul_le_mul_right U (Nat.succ_le_of_lt hlt)
    rw [Nat.succ_mul] at this
    omega
  · have := Nat.mul_le_mul_right U (Nat.succ_le_of_lt hlt)
    rw [Nat.succ_mul] at this
    omega

theorem last_none {s : Sys} {c : Nat} (h : (s.caches c).writes = []) : (step s (.last c)).2 = .threw := by
  unfold step
  dsimp only
  rw [h]; rfl

theorem last_some {s : Sys} {c : Nat} (h : (s.caches c).writes ≠ []) :
    (step s (.last c)).2 = .writes [(s.caches c).writes.getLast h] := by
  unfold step
  dsimp only
  rw [List.getLast?_eq_some_getLast h]

/-- **C110** The writes for an address are exactly the pending ones that contain the address, in the same order; the last
write is the pending one with the greatest identity, and asking for it without pending writes is an exception. -/
theorem C110_lookup {lsb total wm dbs dsize n ids mem s} (h : init lsb total wm dbs dsize n ids mem = some s) (os : List Op)
    (c : Nat) {l : List W} (hl : (step (runOps step s os).1 (.pending c)).2 = .writes l) :
    (∀ a, ∃ k, (step (runOps step s os).1 (.pendingFor c a)).2 = .writes k ∧ k.Sublist l ∧
      ∀ w, w ∈ k ↔ w ∈ l ∧ w.addr ≤ a ∧ a < w.addr + w.data.length) ∧
    (l = [] → (step (runOps step s os).1 (.last c)).2 = .threw) ∧
    (l ≠ [] → ∃ w, (step (runOps step s os).1 (.last c)).2 = .writes [w] ∧ w ∈ l ∧ ∀ v ∈ l, v.uid ≤ w.uid) := by
  obtain ⟨l', h1, -, h3⟩ := C110_pending h os c
  obtain rfl : l' = l := by rw [hl] at h1; cases h1; rfl
  obtain rfl : _ = l' := by simpa [step] using hl
  refine ⟨?_, ?_, ?_⟩
  · intro a
    refine ⟨_, rfl, List.filter_sublist, ?_⟩
    intro w
    rw [List.mem_filter]
    simp [W.covers]
  · exact fun he => last_none he
  · intro hne
    refine ⟨_, last_some hne, List.getLast_mem hne, ?_⟩
    intro v hv
    have e := List.dropLast_concat_getLast hne
    rw [← e] at h3 hv
    rcases List.mem_append.1 hv with hv | hv
    · exact Nat.le_of_lt ((List.pairwise_append.1 h3).2.2 v hv _ (List.mem_singleton.2 rfl))
    · rw [List.mem_singleton.1 hv]; exact Nat.le_refl _

/-! ### C111: pokes -/

/-- **C111** (partial, see the violations below) A poke inside, through a cache that holds the blocks and has no pending write over the
bytes, when no other cache holds them: every cache shows the new bytes there, and what it showed elsewhere; pending writes
stay. -/
theorem C111_poke_partial {s t} (h : Reach s t) {c a : Nat} {bs : Bytes} (hl : t.legal (.tryPoke c a bs))
    (hf : a + bs.length ≤ s.total) {d x : Nat} (hd : d < s.n) (hx : x < s.total) :
    (step s (.tryPoke c a bs)).2 = .yes ∧ keys (step s (.tryPoke c a bs)).1 d = keys s d ∧
    look (step s (.tryPoke c a bs)).1 d x = if a ≤ x ∧ x < a + bs.length then .data [bs.getD (x - a) 0] else look s d x := by
  have r := h.rep
  have h' := h.step _ hl
  have hn : (step s (.tryPoke c a bs)).1.n = s.n := by rw [h'.rep.n, step_n, r.n]
  have ht : (step s (.tryPoke c a bs)).1.total = s.total := by
    rw [h'.rep.total, r.total]
    unfold Spec.step; dsimp only; split <;> rfl
  have hft : t.fits a bs.length = true := by unfold Spec.fits; rw [← r.total]; exact decide_eq_true hf
  have hdn := C107_memory h _ hl
  have hk := C107_pending h _ hl hd
  dsimp only [memoryAfter, pendingAfter] at hdn hk
  rw [if_pos hf] at hdn
  refine ⟨?_, hk, ?_⟩
  · rw [(rep_step r _ hl).2]
    unfold Spec.step
    dsimp only
    rw [if_pos hft]
  · have hs : ∀ b, newest ((step s (.tryPoke c a bs)).1.caches d).writes x b = newest (s.caches d).writes x b :=
      fun b => newest_keys hk x b
    rw [look_eq h' (by rw [hn]; exact hd) (by rw [ht]; exact hx), look_eq h hd hx]
    unfold shown
    rw [hs, hdn]
    unfold assign
    by_cases hin : a ≤ x ∧ x < a + bs.length
    · rw [if_pos hin, if_pos hin, newest_free]
      rintro ⟨w, hw, hcov⟩
      have hp := hl.2.2 hft (x - a) (List.mem_range.2 (by omega))
      rw [show a + (x - a) = x by omega] at hp
      have hd' := node_n r hd
      have hunc : ∀ v ∈ (t.caches d).writes, v.covers x = false := by
        by_cases e : d = c
        · rw [e]; exact hp.2.1
        · exact (r.caches d hd').unheld r.bs0 (hp.2.2 d hd' e)
      rw [(r.caches d hd').writes] at hw
      obtain ⟨i, hi⟩ := List.getElem?_of_mem hw
      rw [report_get] at hi
      obtain ⟨v, hv, rfl⟩ := Option.map_eq_some_iff.1 hi
      exact covers_false (hunc v (List.mem_of_getElem? hv)) hcov
    · rw [if_neg hin, if_neg hin]

/-- **C111 is violated** when the cache does not hold the block: a poke of one byte erases the other bytes of the block, in the
cache and in memory (shown through a second cache). -/
theorem C111_miss_violated :
    (init 2 16 8 4 16 2 id mem0).map (fun s => (runOps step s
      [.tryPeek 0 0 4, .tryPoke 0 1 [9], .tryPeek 0 0 4, .tryPeek 1 0 4]).2) =
    some [.data [1, 2, 3, 4], .yes, .data [0, 9, 0, 0], .data [0, 9, 0, 0]] := by decide +kernel

/-- **C111 is violated** when another cache holds the block: it does not see the poke. -/
theorem C111_other_violated :
    (init 2 16 8 4 16 2 id mem0).map (fun s => (runOps step s
      [.tryWrite 0 0 [1], .tryWrite 1 0 [1], .tryPoke 0 1 [9], .tryPeek 0 1 1, .tryPeek 1 1 1]).2) =
    some [.yes, .yes, .yes, .data [9], .data [2]] := by decide +kernel

/-- **C111 is violated** when the cache has a pending write over the byte: the poke is shown until the write is dropped, which
brings back the byte from before the poke, though memory has the poked byte. -/
theorem C111_pending_violated :
    (init 2 16 8 4 16 2 id mem0).map (fun s => (runOps step s
      [.tryWrite 0 0 [5], .tryPoke 0 0 [9], .tryPeek 0 0 1, .drop 0 1, .tryPeek 0 0 1, .tryPeek 1 0 1]).2) =
    some [.yes, .yes, .data [9], .yes, .data [1], .data [9]] := by decide +kernel

/-! ### Examples: the hypotheses can be met -/

/-- two caches: both write to block 0, cache 1 also over the same byte; cache 0 commits; cache 1 drops -/
def demo : List Op :=
  [.tryWrite 0 0 [9, 8], .tryWrite 1 1 [7], .tryWrite 1 1 [6, 5], .commit 0 1, .tryPeek 1 0 4, .pending 1,
   .drop 1 (idUnit + 1), .tryPeek 1 0 4, .tryWrite 1 4 [1], .tryPoke 1 5 [2, 3], .tryPeek 0 4 4]

example : legalOps Spec.step Spec.legal (Spec.init 2 16 8 2 id mem0) demo := by decide +kernel

example : (init 2 16 8 4 16 2 id mem0).map (fun s => (runOps step s demo).2) =
    some [.yes, .yes, .yes, .yes, .data [9, 6, 5, 4],
      .writes [⟨idUnit + 1, 1, [7], [8]⟩, ⟨idUnit + 2, 1, [6, 5], [7, 3]⟩], .yes, .data [9, 8, 3, 4], .yes, .yes,
      .data [5, 2, 3, 8]] := by decide +kernel

theorem reach_run {s t} (h : Reach s t) (os : List Op) (hl : legalOps Spec.step Spec.legal t os) :
    Reach (runOps step s os).1 (runOps Spec.step t os).1 := by
  induction os generalizing s t with
  | nil => exact h
  | cons o os ih => exact ih (h.step o hl.1) hl.2

/-- states after allowed calls exist -/
example : ∃ s0 s t, init 2 16 8 4 16 2 id mem0 = some s0 ∧ s = (runOps step s0 demo).1 ∧ Reach s t := by
  have h : (init 2 16 8 4 16 2 id mem0).isSome = true := by decide +kernel
  obtain ⟨s0, h0⟩ := Option.isSome_iff_exists.1 h
  exact ⟨s0, _, _, h0, rfl, reach_run (.init h0 (by decide +kernel) (by decide) (by decide)) demo (by decide +kernel)⟩

/-- after the writes of both caches a commit of cache 0 is allowed, with pending writes in both -/
example : legalOps Spec.step Spec.legal (Spec.init 2 16 8 2 id mem0) (demo.take 3) ∧
    (runOps Spec.step (Spec.init 2 16 8 2 id mem0) (demo.take 3)).1.legal (.commit 0 1) ∧
    (runOps Spec.step (Spec.init 2 16 8 2 id mem0) (demo.take 3)).1.legal (.device 0 [3]) ∧
    (init 2 16 8 4 16 2 id mem0).map (fun s => (((runOps step s (demo.take 3)).1.caches 0).writes.length,
      ((runOps step s (demo.take 3)).1.caches 1).writes.map (·.uid))) = some (1, [idUnit + 1, idUnit + 2]) := by decide +kernel

/-- a drop after two writes, and a poke, are allowed -/
example : legalOps Spec.step Spec.legal (Spec.init 2 16 8 2 id mem0) [.tryWrite 0 0 [9, 8], .tryWrite 0 1 [7], .tryPoke 0 3 [2]] ∧
    (∀ o ∈ [Op.tryWrite 0 1 [7]], onlyWrites 0 o) ∧ single (.tryWrite 0 0 [9, 8]) ∧
    (init 2 16 8 4 16 2 id mem0).map (fun s => ((step s (.tryWrite 0 0 [9, 8])).2, (runOps step s
      [.tryWrite 0 0 [9, 8], .tryWrite 0 1 [7]]).1.caches 0 |>.writes.length)) = some (.yes, 2) := by
  refine ⟨by decide +kernel, ?_, ⟨rfl, by decide +kernel⟩, by decide +kernel⟩
  intro o h
  rw [List.mem_singleton.1 h]; rfl

/-- short histories, distinct identities of caches -/
example : demo.length < idUnit ∧ (id 0 : Nat) ≠ id 1 := by decide +kernel

end Sparta.CachedMem
