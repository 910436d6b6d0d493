import Verif.CachedMem.Lemmas4

/-!
# Facts for the properties: the newest write over a byte, pending writes in all histories
-/

namespace Sparta.CachedMem

open Sparta.ArchData (AD WF)
open Sparta.MemoryMap (wordSize)
open Sparta.MemIf (Bytes w64 peekLoop Node)

/-- The state after the construction of caches whose memory is inside the downstream memory, and after calls that
are allowed. The second component says which blocks each cache holds. -/
inductive Reach : Sys → Spec → Prop
  | init {lsb total wm dbs dsize n ids mem s} (h : init lsb total wm dbs dsize n ids mem = some s)
      (hw : total ≤ 2 ^ 63) (hd : total ≤ dsize) (hb : 2 ^ lsb ∣ dbs) : Reach s (Spec.init lsb total wm n ids mem)
  | step {s t} (r : Reach s t) (o : Op) (h : t.legal o) : Reach (step s o).1 (t.step o).1

theorem Reach.rep {s t} (h : Reach s t) : Rep s t := by
  induction h with
  | init h hw hd hb => exact rep_init h hw hd hb
  | step _ o hl ih => exact (rep_step ih o hl).1

/-- the byte of the newest of the writes that contains an address, or else another byte -/
def newest (ws : List W) (x : Nat) (b : UInt8) : UInt8 :=
  match ws.reverse.find? fun w => decide (w.addr ≤ x) && decide (x < w.addr + w.data.length) with
  | some w => w.data.getD (x - w.addr) 0
  | none => b

theorem newest_snoc (ws : List W) (w : W) (x : Nat) (b : UInt8) :
    newest (ws ++ [w]) x b = if w.addr ≤ x ∧ x < w.addr + w.data.length then w.data.getD (x - w.addr) 0 else newest ws x b := by
  unfold newest
  rw [List.reverse_append]
  show (match List.find? _ (w :: ws.reverse) with | some w => _ | none => _) = _
  by_cases h : w.addr ≤ x ∧ x < w.addr + w.data.length
  · rw [List.find?_cons_of_pos (by simpa using h), if_pos h]
  · rw [List.find?_cons_of_neg (by simpa using h), if_neg h]

theorem snoc_cases {α : Type} (l : List α) : l = [] ∨ ∃ k x, l = k ++ [x] ∧ k.length < l.length := by
  by_cases h : l = []
  · exact .inl h
  · refine .inr ⟨l.dropLast, l.getLast h, (List.dropLast_concat_getLast h).symm, ?_⟩
    have : 0 < l.length := List.length_pos_iff.2 h
    rw [List.length_dropLast]; omega

theorem view_newest (mem mem' : Nat → UInt8) (x : Nat) : ∀ (k : Nat) (ws : List SW), ws.length = k →
    view mem ws x = newest (report mem' ws) x (mem x) := by
  intro k
  induction k with
  | zero => intro ws h; rw [List.eq_nil_of_length_eq_zero h]; rfl
  | succ k ih =>
    intro ws h
    rcases snoc_cases ws with rfl | ⟨vs, w, rfl, -⟩
    · cases h
    · rw [view_snoc, report_snoc, newest_snoc]
      unfold put
      rw [ih vs (by simpa using h)]

theorem report_take (mem : Nat → UInt8) (ws : List SW) (i : Nat) : (report mem ws).take i = report mem (ws.take i) := by
  induction ws generalizing mem i with
  | nil => cases i <;> rfl
  | cons w ws ih =>
    cases i with
    | zero => rfl
    | succ i => show _ :: (report _ ws).take i = _ :: report _ (ws.take i); rw [ih]

theorem report_get (mem : Nat → UInt8) (ws : List SW) (i : Nat) :
    (report mem ws)[i]? = ws[i]?.map fun w => ⟨w.uid, w.addr, w.data, bytes (view mem (ws.take i)) w.addr w.data.length⟩ := by
  induction ws generalizing mem i with
  | nil => rfl
  | cons w ws ih =>
    cases i with
    | zero => rfl
    | succ i => exact ih _ i

/-- what identifies pending writes: identity, address and data of each -/
def keys (s : Sys) (c : Nat) : List (Nat × Nat × Bytes) := (s.caches c).writes.map fun w => (w.uid, w.addr, w.data)

def skeys (ws : List SW) : List (Nat × Nat × Bytes) := ws.map fun w => (w.uid, w.addr, w.data)

theorem report_keys (mem : Nat → UInt8) (ws : List SW) :
    (report mem ws).map (fun w => (w.uid, w.addr, w.data)) = skeys ws := by
  induction ws generalizing mem with
  | nil => rfl
  | cons w ws ih => show _ :: (report _ ws).map _ = _ :: skeys ws; rw [ih]

theorem Rep.keys {s t} (r : Rep s t) {c : Nat} (hc : c < t.n) : keys s c = skeys (t.caches c).writes := by
  unfold CachedMem.keys
  rw [(r.caches c hc).writes, report_keys]

theorem newest_keys {ws vs : List W} (h : ws.map (fun w => (w.uid, w.addr, w.data)) = vs.map fun w => (w.uid, w.addr, w.data))
    (x : Nat) (b : UInt8) : newest ws x b = newest vs x b := by
  have : ∀ (k : Nat) (ws vs : List W), ws.length = k →
      (ws.map (fun w => (w.uid, w.addr, w.data)) = vs.map fun w => (w.uid, w.addr, w.data)) →
      newest ws x b = newest vs x b := by
    intro k
    induction k with
    | zero =>
      intro ws vs hk h
      rw [List.eq_nil_of_length_eq_zero hk] at h ⊢
      have := congrArg List.length h
      simp only [List.length_map, List.length_nil] at this
      rw [List.eq_nil_of_length_eq_zero this.symm]
    | succ k ih =>
      intro ws vs hk h
      have hl := congrArg List.length h
      simp only [List.length_map] at hl
      rcases snoc_cases ws with rfl | ⟨ws', w, rfl, -⟩
      · cases hk
      · rcases snoc_cases vs with rfl | ⟨vs', v, rfl, -⟩
        · simp at hl
        · simp only [List.map_append, List.map_cons, List.map_nil] at h
          obtain ⟨h1, h2⟩ := List.append_inj' h rfl
          simp only [List.cons.injEq, Prod.mk.injEq, and_true] at h2
          rw [newest_snoc, newest_snoc, h2.2.1, h2.2.2, ih ws' vs' (by simpa using hk) h1]
  exact this _ ws vs rfl h

/-! ### Pending writes, in all histories -/

/-- pending writes without previous values, and the counter -/
def K (x : Cache) : List (Nat × Nat × Bytes) × Nat := (x.writes.map fun w => (w.uid, w.addr, w.data), x.uid)

theorem collide_keys (a : Nat) (b : UInt8) (ws : List W) :
    (collide a b ws).1.map (fun w => (w.uid, w.addr, w.data)) = ws.map fun w => (w.uid, w.addr, w.data) := by
  induction ws with
  | nil => rfl
  | cons w ws ih =>
    unfold collide
    split
    · rfl
    · show _ :: (collide a b ws).1.map _ = _
      rw [ih]; rfl

theorem mergeLoop_K {d : Bytes} : ∀ {x x' : Cache} {a : Nat}, mergeLoop x a d = some x' → K x' = K x := by
  induction d with
  | nil => intro x x' a h; obtain rfl := Option.some.inj h; rfl
  | cons b d ih =>
    intro x x' a h
    unfold mergeLoop at h
    have hk := collide_keys a b x.writes
    cases hc : collide a b x.writes with
    | mk ws hit =>
      rw [hc] at h hk
      cases hit with
      | true =>
        rw [ih h]
        unfold K
        dsimp only at hk ⊢
        rw [hk]
      | false =>
        dsimp only at h
        cases hw : x.mem.write a [b] with
        | mk m ok =>
          rw [hw] at h
          cases ok with
          | true => rw [ih h]; rfl
          | false => cases h

theorem merge_K {x x' : Cache} {a : Nat} {d : Bytes} (h : merge x a d = some x') : K x' = K x := by
  unfold merge at h
  split at h
  · exact mergeLoop_K h
  · cases hw : x.mem.write a d with
    | mk m ok =>
      rw [hw] at h
      cases ok with
      | true => obtain rfl := Option.some.inj h; rfl
      | false => cases h

/-- the writes pending in a system are the same -/
def SameK (s s' : Sys) : Prop := s'.wm = s.wm ∧ ∀ c, K (s'.caches c) = K (s.caches c)

theorem SameK.trans {a b c : Sys} (h : SameK a b) (g : SameK b c) : SameK a c :=
  ⟨g.1.trans h.1, fun d => (g.2 d).trans (h.2 d)⟩

theorem sameK_set {s : Sys} {c : Nat} {x : Cache} (h : K x = K (s.caches c)) : SameK s (s.set c x) := by
  refine ⟨rfl, fun d => ?_⟩
  show K (upd s.caches c x d) = _
  by_cases e : d = c
  · rw [e, upd_same, h]
  · rw [upd_other _ _ e]

theorem mergeAll_K {s : Sys} {src : Option Nat} {a : Nat} {d : Bytes} :
    ∀ {k : Nat} {s' : Sys}, mergeAll s src a d k = some s' → SameK s s' := by
  intro k
  induction k with
  | zero => intro s' h; obtain rfl := Option.some.inj h; exact ⟨rfl, fun _ => rfl⟩
  | succ k ih =>
    intro s' h
    unfold mergeAll at h
    cases hm : mergeAll s src a d k with
    | none => rw [hm] at h; cases h
    | some s1 =>
      rw [hm] at h
      dsimp only at h
      have h1 := ih hm
      by_cases e : src = some k
      · rw [if_pos e] at h
        obtain rfl := Option.some.inj h
        exact h1
      · rw [if_neg e] at h
        cases hx : merge (s1.caches k) a d with
        | none => rw [hx] at h; cases h
        | some x =>
          rw [hx] at h
          obtain rfl := Option.some.inj h
          exact h1.trans (sameK_set (merge_K hx))

theorem sysWrite_K {s : Sys} {src : Option Nat} {a : Nat} {d : Bytes} {r} (h : sysWrite s src a d = some r) :
    SameK s r.1 := by
  unfold sysWrite at h
  split at h
  · obtain rfl := Option.some.inj h; exact ⟨rfl, fun _ => rfl⟩
  · split at h
    · obtain rfl := Option.some.inj h; exact ⟨rfl, fun _ => rfl⟩
    · cases hm : mergeAll s src a d s.n with
      | none => rw [hm] at h; cases h
      | some s1 =>
        rw [hm] at h
        obtain rfl := Option.some.inj h
        have := mergeAll_K hm
        exact ⟨this.1, this.2⟩

theorem downPoke_K {s s' : Sys} {a : Nat} {d : Bytes} (h : s.downPoke a d = some s') : SameK s s' := by
  unfold Sys.downPoke at h
  split at h
  · obtain rfl := Option.some.inj h; exact ⟨rfl, fun _ => rfl⟩
  · cases h

theorem poke_K {s : Sys} {c a : Nat} {d : Bytes} {r} (h : poke_ s c a d = some r) : SameK s r.1 := by
  unfold poke_ at h
  dsimp only at h
  cases hm : pokeMiss s c a with
  | none => rw [hm] at h; cases h
  | some q =>
    rw [hm, Option.bind_some] at h
    have hq : SameK s q.1 := by
      unfold pokeMiss at hm
      cases hx : missing (s.caches c).mem a with
      | none => rw [hx] at hm; cases hm
      | some b =>
        rw [hx] at hm
        cases b with
        | false => obtain rfl := Option.some.inj hm; exact ⟨rfl, fun _ => rfl⟩
        | true =>
          dsimp only at hm
          obtain ⟨m, -, hm⟩ := Option.bind_eq_some_iff.1 hm
          obtain ⟨l, -, hm⟩ := Option.bind_eq_some_iff.1 hm
          obtain ⟨s1, h1, rfl⟩ := Option.map_eq_some_iff.1 hm
          exact downPoke_K h1
    cases hw : q.2.write a d with
    | mk m ok =>
      rw [hw] at h
      cases ok with
      | false => cases h
      | true =>
        dsimp only at h
        obtain ⟨s1, h1, rfl⟩ := Option.map_eq_some_iff.1 h
        refine SameK.trans (hq.trans (sameK_set ?_)) (downPoke_K h1)
        exact (hq.2 c).symm

theorem pokeLoop_K {n : Node} {c : Nat} : ∀ {fuel : Nat} {s : Sys} {a stop : Nat} {d : Bytes} {r},
    pokeLoop n (fun s a bs => poke_ s c a bs) fuel s a stop d = some r → SameK s r.1 := by
  intro fuel
  induction fuel with
  | zero => intro s a stop d r h; cases h
  | succ fuel ih =>
    intro s a stop d r h
    unfold pokeLoop at h
    dsimp only at h
    split at h
    · exact poke_K h
    · cases hp : poke_ s c a (d.take (w64 (n.base (w64 (a + n.bs)) + (wordSize - a)))) with
      | none => rw [hp] at h; cases h
      | some q =>
        rw [hp] at h
        obtain ⟨s1, b⟩ := q
        cases b with
        | false => obtain rfl := Option.some.inj h; exact poke_K hp
        | true => exact SameK.trans (poke_K hp) (ih h)

theorem dropLoop_suffix {u : Nat} : ∀ {l : List W} {m m' : AD} {l' : List W}, dropLoop u m l = some (m', l') → l' <:+ l := by
  intro l
  induction l with
  | nil => intro m m' l' h; cases h; exact List.suffix_refl _
  | cons w l ih =>
    intro m m' l' h
    unfold dropLoop at h
    cases hw : m.write w.addr w.prev with
    | mk q ok =>
      rw [hw] at h
      cases ok with
      | false => cases h
      | true =>
        dsimp only at h
        split at h
        · cases h; exact List.suffix_cons ..
        · exact (ih h).trans (List.suffix_cons ..)

/-- what one call does to the pending writes of a cache -/
theorem step_K (s : Sys) (o : Op) : (step s o).1.wm = s.wm ∧ ∀ c,
    K ((step s o).1.caches c) = K (s.caches c) ∨
    (∃ k, k.Sublist (K (s.caches c)).1 ∧ K ((step s o).1.caches c) = (k, (s.caches c).uid)) ∨
    (∃ a d, (s.caches c).writes.length ≠ s.wm ∧ K ((step s o).1.caches c) =
      ((K (s.caches c)).1 ++ [((s.caches c).uid + 1, a, d)], (s.caches c).uid + 1)) := by
  have same : ∀ {s'}, SameK s s' → s'.wm = s.wm ∧ ∀ c, K (s'.caches c) = K (s.caches c) ∨
    (∃ k, k.Sublist (K (s.caches c)).1 ∧ K (s'.caches c) = (k, (s.caches c).uid)) ∨
    (∃ a d, (s.caches c).writes.length ≠ s.wm ∧ K (s'.caches c) =
      ((K (s.caches c)).1 ++ [((s.caches c).uid + 1, a, d)], (s.caches c).uid + 1)) := fun h => ⟨h.1, fun c => .inl (h.2 c)⟩
  have rfl' : SameK s s := ⟨rfl, fun _ => rfl⟩
  cases o with
  | tryRead c a k =>
    unfold step
    dsimp only
    split <;> exact same rfl'
  | tryPeek c a k =>
    unfold step
    dsimp only
    split <;> exact same rfl'
  | pending c => exact same rfl'
  | pendingFor c a => exact same rfl'
  | last c =>
    unfold step
    dsimp only
    split <;> exact same rfl'
  | device a d =>
    unfold step
    dsimp only
    cases h : sysWrite s none a d with
    | none => exact same rfl'
    | some r => exact same (sysWrite_K h)
  | tryPoke c a d =>
    unfold step
    dsimp only
    cases h : tryPoke s c a d with
    | none => exact same rfl'
    | some r =>
      apply same
      unfold tryPoke at h
      split at h
      · exact pokeLoop_K h
      · cases h; exact rfl'
  | tryWrite c a d =>
    unfold step
    dsimp only
    cases h : tryWrite s c a d with
    | none => exact same rfl'
    | some r =>
      unfold tryWrite at h
      split at h
      · cases h; exact same rfl'
      · split at h
        · cases h; exact same rfl'
        · obtain ⟨s1, h1, rfl⟩ := Option.map_eq_some_iff.1 h
          unfold write_ at h1
          dsimp only at h1
          by_cases hw : (s.caches c).writes.length = s.wm
          · rw [if_pos hw] at h1; cases h1
          · rw [if_neg hw] at h1
            obtain ⟨m, -, h1⟩ := Option.bind_eq_some_iff.1 h1
            obtain ⟨prev, -, h1⟩ := Option.bind_eq_some_iff.1 h1
            cases hx : m.write a d with
            | mk q ok =>
              rw [hx] at h1
              cases ok with
              | false => cases h1
              | true =>
                obtain rfl := Option.some.inj h1
                refine ⟨rfl, fun e => ?_⟩
                by_cases he : e = c
                · subst he
                  refine .inr (.inr ⟨a, d, hw, ?_⟩)
                  show K (upd s.caches e _ e) = _
                  rw [upd_same]
                  unfold K
                  rw [List.map_append]
                  rfl
                · refine .inl ?_
                  show K (upd s.caches c _ e) = _
                  rw [upd_other _ _ he]
  | commit c u =>
    unfold step
    dsimp only
    cases h : commit s c u with
    | none => exact same rfl'
    | some s' =>
      unfold commit at h
      cases hw : (s.caches c).writes with
      | nil => rw [hw] at h; cases h
      | cons w ws =>
        rw [hw] at h
        dsimp only at h
        split at h
        · cases h
        · obtain ⟨r, h1, rfl⟩ := Option.map_eq_some_iff.1 h
          have hk := sysWrite_K h1
          refine ⟨hk.1, fun e => ?_⟩
          by_cases he : e = c
          · subst he
            refine .inr (.inl ⟨(K (s.caches e)).1.tail, List.tail_sublist _, ?_⟩)
            show K (upd r.1.caches e _ e) = _
            rw [upd_same]
            have := hk.2 e
            unfold K at this ⊢
            simp only [Prod.mk.injEq] at this ⊢
            exact ⟨by rw [List.map_tail, this.1], this.2⟩
          · refine .inl ?_
            show K (upd r.1.caches c _ e) = _
            rw [upd_other _ _ he]; exact hk.2 e
  | drop c u =>
    unfold step
    dsimp only
    cases h : drop s c u with
    | none => exact same rfl'
    | some s' =>
      unfold drop at h
      dsimp only at h
      split at h
      · cases h
      · obtain ⟨r, h1, rfl⟩ := Option.map_eq_some_iff.1 h
        refine ⟨rfl, fun e => ?_⟩
        by_cases he : e = c
        · subst he
          refine .inr (.inl ⟨(r.2.reverse).map fun w => (w.uid, w.addr, w.data), ?_, ?_⟩)
          · have := dropLoop_suffix (l := (s.caches e).writes.reverse) (m' := r.1) (l' := r.2) h1
            have := List.reverse_sublist.2 this.sublist
            rw [List.reverse_reverse] at this
            exact this.map _
          · show K (upd s.caches e _ e) = _
            rw [upd_same]; rfl
        · refine .inl ?_
          show K (upd s.caches c _ e) = _
          rw [upd_other _ _ he]

/-- identities of pending writes grow, and are between the first identity of the cache and the latest; there are
never more than the watermark -/
structure Inv (base : Nat → Nat) (cnt : Nat) (s : Sys) : Prop where
  sorted : ∀ c, (K (s.caches c)).1.Pairwise fun v w => v.1 < w.1
  range : ∀ c, ∀ v ∈ (K (s.caches c)).1, base c < v.1 ∧ v.1 ≤ (s.caches c).uid
  top : ∀ c, base c ≤ (s.caches c).uid ∧ (s.caches c).uid ≤ base c + cnt
  length : ∀ c, (s.caches c).writes.length ≤ s.wm

theorem inv_init {lsb total wm dbs dsize n ids mem s} (h : init lsb total wm dbs dsize n ids mem = some s) :
    Inv (fun c => ids c * idUnit) 0 s ∧ s.wm = wm := by
  unfold init at h
  cases hm : AD.initMemory lsb 0 1 total with
  | none => rw [hm] at h; cases h
  | some m =>
    rw [hm] at h
    dsimp only at h
    split at h
    · obtain rfl := Option.some.inj h
      generalize idUnit = U
      exact ⟨⟨fun _ => List.Pairwise.nil, fun _ v hv => (by cases hv), fun _ => ⟨Nat.le_refl _, Nat.le_refl _⟩,
        fun _ => Nat.zero_le _⟩, rfl⟩
    · cases h

theorem inv_step {base cnt s} (I : Inv base cnt s) (o : Op) : Inv base (cnt + 1) (step s o).1 := by
  obtain ⟨hw, hc⟩ := step_K s o
  have hlen : ∀ x : Cache, x.writes.length = (K x).1.length := fun x => (List.length_map ..).symm
  have huid : ∀ x : Cache, x.uid = (K x).2 := fun x => rfl
  refine ⟨?_, ?_, ?_, ?_⟩
  all_goals intro c
  all_goals have t1 := I.top c
  all_goals have t2 := I.length c
  all_goals rcases hc c with h | ⟨k, hk, h⟩ | ⟨a, d, hne, h⟩
  · rw [h]; exact I.sorted c
  · rw [h]; exact (I.sorted c).sublist hk
  · rw [h, List.pairwise_append]
    refine ⟨I.sorted c, List.pairwise_singleton .., ?_⟩
    intro v hv w hw
    rw [List.mem_singleton] at hw
    subst hw
    have := (I.range c v hv).2
    show v.1 < (s.caches c).uid + 1
    omega
  · rw [huid, h]; exact I.range c
  · rw [huid, h]
    intro v hv
    exact I.range c v (hk.subset hv)
  · rw [huid, h]
    intro v hv
    rcases List.mem_append.1 hv with hv | hv
    · have := I.range c v hv
      exact ⟨this.1, Nat.le_succ_of_le this.2⟩
    · rw [List.mem_singleton] at hv
      subst hv
      exact ⟨Nat.lt_succ_of_le t1.1, Nat.le_refl _⟩
  · rw [huid, h]; exact ⟨t1.1, Nat.le_succ_of_le t1.2⟩
  · rw [huid, h]; exact ⟨t1.1, Nat.le_succ_of_le t1.2⟩
  · rw [huid, h]; exact ⟨Nat.le_succ_of_le t1.1, Nat.succ_le_succ t1.2⟩
  · rw [hlen, h, hw, ← hlen]; exact t2
  · rw [hlen, h, hw]
    have := hk.length_le
    rw [← hlen] at this
    exact Nat.le_trans this t2
  · rw [hlen, h, hw, List.length_append, ← hlen, List.length_singleton]
    omega

theorem inv_run {base : Nat → Nat} (os : List Op) : ∀ {cnt s}, Inv base cnt s →
    Inv base (cnt + os.length) (runOps step s os).1 ∧ (runOps step s os).1.wm = s.wm := by
  induction os with
  | nil => intro cnt s I; exact ⟨I, rfl⟩
  | cons o os ih =>
    intro cnt s I
    obtain ⟨h1, h2⟩ := ih (inv_step I o)
    rw [List.length_cons, Nat.add_comm os.length 1, ← Nat.add_assoc]
    exact ⟨h1, h2.trans (step_K s o).1⟩

end Sparta.CachedMem
