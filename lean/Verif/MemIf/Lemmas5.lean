import Verif.MemIf.Lemmas4

/-!
# Simulation of direct memory interfaces, errors, and all operations
-/

namespace Sparta.MemIf

open Sparta.MemoryMap (wordSize Mapping)

/-! ### Direct memory interfaces -/

/-- `spans` also when the access reaches beyond the end of the address space -/
theorem spans_gen {n : Node} (h : 2 ^ n.bs.log2 = n.bs) (hw : n.bs ∣ wordSize) {a k : Nat} (ha : a < wordSize)
    (hk : 0 < k) (hm : a % n.bs + k < wordSize) : n.spans a k = true ↔ ¬ inBlock n.bs a k := by
  have h0 := bs_pos h
  have hd := Nat.div_add_mod a n.bs
  have hml := Nat.mod_lt a h0
  have hbl := block_end_le h0 hw ha
  rw [Nat.add_mul, Nat.one_mul, Nat.mul_comm] at hbl
  have e : w64 (w64 (a + k) + (wordSize - 1)) = (a + k - 1) % wordSize := by
    unfold w64
    rw [Nat.mod_add_mod, show a + k + (wordSize - 1) = (a + k - 1) + wordSize by omega, Nat.add_mod_right]
  rw [Node.spans, e, base_eq h, base_eq h, bne_iff_ne]
  by_cases hlt : a + k - 1 < wordSize
  · rw [Nat.mod_eq_of_lt hlt, inBlock_iff h0 hk]
    constructor
    · intro h e; rw [e] at h; exact h rfl
    · intro h e; exact h (Nat.eq_of_mul_eq_mul_right h0 e)
  · have hmod : (a + k - 1) % wordSize = a + k - 1 - wordSize := by
      rw [Nat.mod_eq_sub_mod (by omega)]
      exact Nat.mod_eq_of_lt (by omega)
    rw [hmod]
    constructor
    · intro _ hb
      unfold inBlock at hb
      omega
    · intro _ e
      have h1 : (a + k - 1 - wordSize) / n.bs * n.bs ≤ a + k - 1 - wordSize := Nat.div_mul_le_self _ _
      rw [← e, Nat.mul_comm] at h1
      omega

theorem trail_ne {t : Spec} (hc : Cfg t.nodes t.objs) {i n} (hn : t.nodes i = some n) (a : Nat) : t.trail i a ≠ [] := by
  by_cases ha : a < n.total
  · cases hk : n.kind with
    | obj o => rw [(walk_obj hc hn hk ha).2]; simp
    | map ms =>
      cases hf : ms.find? (hit a) with
      | none => rw [(walk_hole hc hn hk hf).2]; simp
      | some m => rw [(walk_map hc hn hk ha hf).2]; simp
  · rw [(walk_out hc hn (by omega)).2]; simp

theorem getLastD_cons {α : Type} (x d : α) (l : List α) (h : l ≠ []) : (x :: l).getLastD d = l.getLastD d := by
  cases l with
  | nil => exact absurd rfl h
  | cons y l => rfl

theorem upd_same {α : Type} (f : Nat → α) (i : Nat) (x : α) (h : f i = x) : upd f i x = f := by
  funext j
  unfold upd
  by_cases e : j = i
  · rw [if_pos e, e, h]
  · rw [if_neg e]

theorem getDMI_sim : ∀ (d i : Nat) (s : Sys) (t : Spec) (sn : SNode) (a k : Nat), SRep s t → i < d → t.nodes i = some sn →
    0 < k → a % sn.bs + k < wordSize → (t.loc i a).isSome = true →
    ∃ s', getDMI d s i a k = some (s', (t.getDMI i a k).2) ∧ SRep s' (t.getDMI i a k).1 := by
  intro d
  induction d with
  | zero => intro i s t sn a k _ h; omega
  | succ d ih =>
    intro i s t sn a k r hd hn hk hm hl
    have ok := r.cfg i sn hn
    have hp := bs_pos ok.pow
    obtain ⟨n, hs1, hr⟩ := r.node hn
    have ha : a < sn.total := by
      by_cases h : a < sn.total
      · exact h
      · rw [(walk_out r.cfg hn (by omega)).1] at hl; cases hl
    have htl := ok.lt
    unfold getDMI
    rw [hs1]
    dsimp only
    cases hkd : n.kind with
    | map mp =>
      obtain ⟨hk', _, _, tr, I⟩ := hr.map mp hkd
      dsimp only
      rw [findMapping_eq I]
      cases hf : mp.mappings.find? (hit a) with
      | none => rw [(walk_hole r.cfg hn hk' hf).1] at hl; cases hl
      | some m =>
        dsimp only
        have mo := ok.map _ hk' m (List.mem_of_find?_eq_some hf)
        have hin := hit_iff.1 (List.find?_some hf)
        obtain ⟨tn, ht, hbs⟩ := mo.tgt
        obtain ⟨wl, wt⟩ := walk_map r.cfg hn hk' ha hf
        have hmod := dvd_sub_add_mod mo.start mo.dest hin.1
        have hlt := mo.lt
        rw [mapAddress_eq mo hin.1 hin.2]
        obtain ⟨s', q1, q2⟩ := ih m.memif s t tn (m.destOff + (a - m.start)) k r (by omega) ht hk
          (by rw [hbs, hmod]; exact hm) (by rw [← wl]; exact hl)
        have hcr : t.crosses i a k = t.crosses m.memif (m.destOff + (a - m.start)) k := by
          rw [Bool.eq_iff_iff, crosses_eq r.cfg hn hk, crosses_eq r.cfg ht hk, hbs]
          unfold inBlock
          rw [hmod]
        have hla : t.last i a = t.last m.memif (m.destOff + (a - m.start)) := by
          unfold Spec.last
          rw [wt, getLastD_cons _ _ _ (trail_ne r.cfg ht _)]
        have e : t.getDMI i a k = t.getDMI m.memif (m.destOff + (a - m.start)) k := by
          unfold Spec.getDMI
          rw [hcr, wl, hla]
        rw [e]
        exact ⟨s', q1, q2⟩
    | obj o =>
      have hk' := hr.obj o hkd
      dsimp only
      obtain ⟨wl, wt⟩ := walk_obj r.cfg hn hk' ha
      have hla : t.last i a = (i, a) := by unfold Spec.last; rw [wt]; rfl
      have hw := bs_dvd_word ok.pow ok.al (by omega) ok.lt
      have hsp : n.spans a k = t.crosses i a k := by
        rw [Bool.eq_iff_iff, crosses_eq r.cfg hn hk, ← hr.bs]
        exact spans_gen (hr.pow ok.pow) (by rw [hr.bs]; exact hw) (by omega) hk (by rw [hr.bs]; exact hm)
      rw [hsp, Spec.getDMI]
      by_cases hc : t.crosses i a k = true
      · rw [if_pos hc, if_pos hc]
        exact ⟨s, rfl, r⟩
      · rw [if_neg hc, if_neg hc, wl, hla, hn]
        dsimp only
        rw [base_eq (hr.pow ok.pow), hr.bs, r.dmis]
        cases hfi : t.dmis.findIdx? (fun y => y.node == i && y.start == a / sn.bs * sn.bs) with
        | some h => exact ⟨s, rfl, r⟩
        | none =>
          dsimp only
          obtain ⟨ms, h1, h2, h3⟩ := ok.obj o hk'
          obtain ⟨m, h4, rep, h5⟩ := r.obj h1
          have hls : m.lineSize = sn.bs := rep.ls.symm.trans h2
          have hal : a / sn.bs * sn.bs ≤ a := Nat.div_mul_le_self _ _
          have hbl := block_end_le hp ok.al ha
          rw [Nat.add_mul, Nat.one_mul] at hbl
          have hsz : a / sn.bs * sn.bs < m.size := by rw [← rep.size, h3]; omega
          obtain ⟨q, l, g1, g2, g3, g4, g5, g6, _⟩ := ArchData.getLine_spec m rep.wf.fill _ hsz
          rw [h4]
          dsimp only
          rw [g1, hls]
          dsimp only
          have hct : ctorOk sn.bs (a / sn.bs * sn.bs) (w64 (a / sn.bs * sn.bs + sn.bs)) = true := by
            rw [w64_of_lt (by omega)]
            unfold ctorOk
            have e1 : a / sn.bs * sn.bs % sn.bs = 0 := Nat.mul_mod_left _ _
            have e2 : (a / sn.bs * sn.bs + sn.bs) % sn.bs = 0 := by rw [Nat.add_mod_right]; exact e1
            rw [e1, e2]
            have h6 := ok.pow
            have h7 : sn.bs ≠ 0 := by omega
            simp [h6, h7]; omega
          rw [if_pos hct]
          refine ⟨_, rfl, ?_⟩
          have repq := ArchData.rep_same rep (ArchData.getLine_wf rep.wf hsz g1) g2 g4
          have hgrow : ∀ j, m.find j ≠ none → q.find j ≠ none := by
            intro j hj
            by_cases e : j = a / sn.bs * sn.bs / m.lineSize
            · rw [e, g3]; simp
            · rw [g5 j e]; exact hj
          have r2 := srep_obj r h4 h1 repq rfl rfl g2 hgrow
          rw [upd_same _ _ _ h1] at r2
          have hqs : q.size = m.size := g2.2.2.2.2.1
          refine ⟨r2.nObj, r2.nNode, r2.reads, r2.writes, r2.obsR, r2.obsW, r2.notes, ?_, r2.objs, r2.objLt, r2.nodes,
            r2.nodeLt, r2.cfg, ?_⟩
          · rfl
          · intro x hx
            rcases List.mem_append.1 hx with hx | hx
            · exact r2.dmi x hx
            · rw [List.mem_singleton.1 hx]
              refine ⟨q, ?_, g2.lineSize.trans hls, ⟨a / sn.bs, Nat.mul_comm _ _⟩, by rw [hqs]; exact hsz, ?_⟩
              · show upd s.objs o (some q) o = _
                rw [upd, if_pos rfl]
              · show q.find (a / sn.bs * sn.bs / sn.bs) ≠ none
                rw [hls] at g3
                rw [g3]; simp

/-- a direct interface: the bytes of a line -/
theorem dmi_line {m : ArchData.AD} {ms : ArchData.Spec} (rep : ArchData.Rep m ms) {x : Dmi} (h2 : m.lineSize = x.size)
    (h3 : x.size ∣ x.start) (h4 : x.start < m.size) :
    2 ^ x.size.log2 = x.size ∧ 0 < x.size ∧ x.start + x.size < wordSize ∧
      ∀ a k, 0 < k → x.start ≤ a → a + k ≤ x.start + x.size →
        a / x.size = x.start / x.size ∧ a % x.size = a - x.start ∧ inBlock x.size a k := by
  have hp : 0 < x.size := by rw [← h2]; exact ArchData.lineSize_pos m
  refine ⟨?_, hp, ?_, ?_⟩
  · rw [← h2, ArchData.AD.lineSize, Nat.log2_two_pow]
  · have h5 := rep.wf.size
    have h6 := ArchData.lineSize_le rep.wf
    rw [h2] at h6
    have e : (2 : Nat) ^ 31 + 2 ^ 63 < wordSize := by unfold wordSize; decide
    omega
  · intro a k hk ha hb
    obtain ⟨q, hq⟩ := h3
    have hd : x.start / x.size = q := by rw [hq]; exact Nat.mul_div_cancel_left _ hp
    have ha' : a = x.size * q + (a - x.start) := by omega
    have e1 : a / x.size = q := by
      rw [ha', Nat.mul_add_div hp, Nat.div_eq_of_lt (by omega)]; omega
    have e2 : a % x.size = a - x.start := by
      have := Nat.div_add_mod a x.size
      rw [e1] at this
      omega
    exact ⟨e1.trans hd.symm, e2, by unfold inBlock; omega⟩

theorem dmi_ok {s t} (r : SRep s t) {x : Dmi} (hx : DmiOk s.objs x) {a k : Nat} (hs : sized a k) :
    ((x.asNode.spans a k = false ∧ x.asNode.inWindow a k = true) ↔ x.start ≤ a ∧ a + k ≤ x.start + x.size) := by
  obtain ⟨m, h1, h2, h3, h4, h5⟩ := hx
  obtain ⟨ms, rep⟩ : ∃ ms, ArchData.Rep m ms := by
    rcases r.objs x.obj with ⟨g, _⟩ | ⟨m', ms, g1, _, g3, _⟩
    · rw [g] at h1; cases h1
    · rw [g1] at h1; cases h1; exact ⟨ms, g3⟩
  obtain ⟨l1, l2, l3, l4⟩ := dmi_line rep h2 h3 h4
  have hk := hs.1
  have e : x.asNode.inWindow a k = true ↔ x.start ≤ a ∧ a + k ≤ x.start + x.size := by
    unfold Node.inWindow Dmi.asNode
    dsimp only
    rw [w64_of_lt hs.2, w64_of_lt l3]
    simp
  constructor
  · intro h; exact e.1 h.2
  · intro h
    refine ⟨?_, e.2 h⟩
    have hb := (l4 a k hk h.1 h.2).2.2
    have hsp := spans_eq (n := x.asNode) (show 2 ^ x.asNode.bs.log2 = x.asNode.bs from l1) hs
    rw [hsp]
    have hd := (inBlock_iff l2 hk).1 hb
    show (a / x.size != (a + k - 1) / x.size) = false
    rw [← hd]; simp

theorem dmiRead_sim {s t} (r : SRep s t) {h a k : Nat} {x : Dmi} (hx : t.dmis[h]? = some x) (hs : sized a k) :
    dmiRead s h a k = some (if x.covers a k then some ((List.range k).map fun j =>
          match t.objs x.obj with | none => 0 | some m => m.mem (a + j)) else none) := by
  have hd := r.dmi x (List.mem_of_getElem? hx)
  have hw := dmi_ok r hd hs
  unfold dmiRead
  rw [r.dmis, hx]
  dsimp only
  unfold Dmi.covers
  cases hv : x.valid with
  | false => simp
  | true =>
    rw [if_neg (by simp)]
    by_cases hc : x.start ≤ a ∧ a + k ≤ x.start + x.size
    · obtain ⟨w1, w2⟩ := hw.2 hc
      rw [w1, w2, if_neg (by simp), if_neg (by simp)]
      obtain ⟨m, h1, h2, h3, h4, h5⟩ := hd
      rw [h1]
      dsimp only
      rcases r.objs x.obj with ⟨g, _⟩ | ⟨m', ms, g1, g2, rep, _⟩
      · rw [g] at h1; cases h1
      · rw [g1] at h1; cases h1
        obtain ⟨l1, l2, l3, l4⟩ := dmi_line rep h2 h3 h4
        obtain ⟨e1, e2, e3⟩ := l4 a k hs.1 hc.1 hc.2
        obtain ⟨l, hl⟩ := Option.ne_none_iff_exists'.1 h5
        rw [hl, g2]
        dsimp only
        have := ArchData.line_load rep (a := a) (n := k) (l := l) (by rw [h2, e1]; exact hl) (by rw [h2]; exact e3)
        rw [h2, e2] at this
        rw [this]
        simp [hc.1, hc.2]
        rfl
    · have e : ¬ (true && decide (x.start ≤ a) && decide (a + k ≤ x.start + x.size)) = true := by simpa using hc
      rw [if_neg e]
      by_cases hsp : x.asNode.spans a k = true
      · rw [if_pos hsp]
      · rw [if_neg hsp, if_pos]
        rw [Bool.eq_false_iff]
        intro hin
        exact hc (hw.1 ⟨by simpa using hsp, hin⟩)

/-- bytes written through a line, whatever the dirty flag -/
theorem rep_overwrite {m : ArchData.AD} {ms : ArchData.Spec} (rep : ArchData.Rep m ms) {a : Nat} {bs : Bytes} {x : Dmi}
    (h2 : m.lineSize = x.size) (h3 : x.size ∣ x.start) (h4 : x.start < m.size) (h5 : m.find (x.start / x.size) ≠ none)
    (hk : 0 < bs.length) (ha : x.start ≤ a) (hb : a + bs.length ≤ x.start + x.size) :
    ArchData.Rep (m.modify (x.start / x.size) fun l => ⟨ArchData.overwrite l.data (a - x.start) bs, l.dirty⟩) (ms.store a bs) := by
  obtain ⟨l1, l2, l3, l4⟩ := dmi_line rep h2 h3 h4
  refine ⟨ArchData.modify_wf rep.wf _ _, rep.lsb, rep.fill, rep.fsz, rep.size, rep.inits, rep.short, ?_⟩
  intro y
  show _ = if a ≤ y ∧ y < a + bs.length then bs.getD (y - a) 0 else ms.mem y
  rw [← rep.mem y]
  unfold ArchData.AD.byteAt
  rw [ArchData.find_modify]
  have hls : (m.modify (x.start / x.size) fun l => ⟨ArchData.overwrite l.data (a - x.start) bs, l.dirty⟩).lineSize = x.size := h2
  rw [hls, h2]
  obtain ⟨l, hl⟩ := Option.ne_none_iff_exists'.1 h5
  by_cases e : y / x.size = x.start / x.size
  · rw [if_pos e, e, hl]
    show ArchData.overwrite l.data (a - x.start) bs (y % x.size) = _
    unfold ArchData.overwrite
    obtain ⟨q, hq⟩ := h3
    have hd : x.start / x.size = q := by rw [hq]; exact Nat.mul_div_cancel_left _ l2
    have hy := Nat.div_add_mod y x.size
    rw [e, hd] at hy
    by_cases hc : a ≤ y ∧ y < a + bs.length
    · rw [if_pos hc, if_pos (by omega), show y % x.size - (a - x.start) = y - a by omega]
    · rw [if_neg hc, if_neg (by omega)]
  · rw [if_neg e, if_neg]
    · rfl
    · intro hc
      exact e ((l4 y 1 (by omega) (by omega) (by omega)).1)

theorem dmiWrite_sim {s t} (r : SRep s t) {h a : Nat} {bs : Bytes} {x : Dmi} (hx : t.dmis[h]? = some x) (hs : sized a bs.length) :
    ∃ s', dmiWrite s h a bs = some (s', x.covers a bs.length) ∧ SRep s' (if x.covers a bs.length then
      t.withObjs (upd t.objs x.obj ((t.objs x.obj).map fun m => m.store a bs)) else t) := by
  have hd := r.dmi x (List.mem_of_getElem? hx)
  have hw := dmi_ok r hd hs
  have hx' : s.dmis[h]? = some x := by rw [r.dmis]; exact hx
  unfold dmiWrite
  rw [hx']
  dsimp only
  unfold Dmi.covers
  cases hv : x.valid with
  | false => exact ⟨s, by simp, by simpa using r⟩
  | true =>
    rw [if_neg (by simp)]
    by_cases hc : x.start ≤ a ∧ a + bs.length ≤ x.start + x.size
    · obtain ⟨w1, w2⟩ := hw.2 hc
      rw [w1, w2, if_neg (by simp), if_neg (by simp)]
      obtain ⟨m, h1, h2, h3, h4, h5⟩ := hd
      rw [h1]
      dsimp only
      rcases r.objs x.obj with ⟨g, _⟩ | ⟨m', ms, g1, g2, rep, _⟩
      · rw [g] at h1; cases h1
      · rw [g1] at h1; cases h1
        obtain ⟨l, hl⟩ := Option.ne_none_iff_exists'.1 h5
        have e : (true && decide (x.start ≤ a) && decide (a + bs.length ≤ x.start + x.size)) = true := by
          simp [hc.1, hc.2]
        rw [e, hl]
        refine ⟨_, rfl, ?_⟩
        rw [if_pos rfl, g2]
        refine srep_obj r g1 g2 (rep_overwrite rep h2 h3 h4 h5 hs.1 hc.1 hc.2) rfl rfl ⟨rfl, rfl, rfl, rfl, rfl, rfl⟩ ?_
        intro j hj
        rw [ArchData.find_modify]
        split
        · obtain ⟨l', hl'⟩ := Option.ne_none_iff_exists'.1 hj
          rw [hl']; simp
        · exact hj
    · have e : (true && decide (x.start ≤ a) && decide (a + bs.length ≤ x.start + x.size)) = false := by
        simpa using hc
      rw [e]
      refine ⟨s, ?_, by simpa using r⟩
      by_cases hsp : x.asNode.spans a bs.length = true
      · rw [if_pos hsp]
      · rw [if_neg hsp, if_pos]
        rw [Bool.eq_false_iff]
        intro hin
        exact hc (hw.1 ⟨by simpa using hsp, hin⟩)

/-! ### Errors -/

theorem within_eq {s t} (r : SRep s t) {i n sn a k} (hn : t.nodes i = some sn) (hr : NRep n sn) (hs : sized a k) :
    n.inWindow a k = t.within i a k := by
  rw [inWindow_eq hr.lo hs, hr.hi, Spec.within, hn]

theorem verify_eq {mp : MemoryMap.Map} {tr} (I : MemoryMap.Inv mp tr) {a k : Nat} (hs : sized a k) :
    MemoryMap.verifyHasMapping mp a k = some (match mp.mappings.find? (hit a) with
      | none => .none
      | some m => if a + k ≤ m.stop then .ok else .spans) := by
  have h := findMapping_eq I a
  rw [MemoryMap.findMapping] at h
  rw [MemoryMap.verifyHasMapping, MemoryMap.verifyLoop_eq, Nat.mod_eq_of_lt hs.2]
  cases hf : MemoryMap.findLoop mp.tree.next mp.tree mp.tree.root a with
  | none => rw [hf] at h; cases h
  | some p =>
    rw [hf] at h
    have h' : p.1 = mp.mappings.find? (hit a) := Option.some.inj h
    rw [← h']; rfl

theorem accessError_sim {s t} (r : SRep s t) {i n sn a k} (hn : t.nodes i = some sn) (hr : NRep n sn) (hs : sized a k) :
    accessError n a k = some (t.accessError i a k) := by
  have hk0 : ¬ k = 0 := by have := hs.1; omega
  unfold accessError Spec.accessError
  rw [hn, within_eq r hn hr hs, spans_crosses r hn hr hs]
  dsimp only
  rw [if_neg hk0]
  have tail : (if t.crosses i a k = true then Err.span else if t.within i a k = false then Err.window else Err.unknown) =
      (if t.crosses i a k = true then Err.span else if t.within i a k = true then Err.unknown else Err.window) := by
    cases t.within i a k <;> rfl
  rw [tail]
  cases hk : n.kind with
  | obj o => rw [hr.obj o hk]
  | map mp =>
    obtain ⟨hk', _, _, tr, I⟩ := hr.map mp hk
    rw [hk']
    dsimp only
    rw [verify_eq I hs]
    have e : mp.mappings.find? (fun m => decide (m.start ≤ a) && decide (a < m.stop)) = mp.mappings.find? (hit a) := rfl
    rw [e]
    cases mp.mappings.find? (hit a) with
    | none => rfl
    | some m =>
      dsimp only
      by_cases h : a + k ≤ m.stop
      · rw [if_pos h, if_pos h]
      · rw [if_neg h, if_neg h]

theorem debugError_sim {s t} (r : SRep s t) {i n sn a k} (hn : t.nodes i = some sn) (hr : NRep n sn) (hs : sized a k) :
    debugError n a k = t.debugError i a k := by
  unfold debugError Spec.debugError
  rw [within_eq r hn hr hs]
  cases t.within i a k <;> rfl

end Sparta.MemIf
