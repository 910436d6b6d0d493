import Verif.PFile.Inv
import Verif.Checkpoint.Props
/-!
Theorems about checkpoint files (C231, C232, C233).
-/
namespace Sparta.PFile
open Sparta.ArchData (AD WF)
open Sparta.Checkpoint

/-- a memory as the specification sees it: its parameters and its bytes -/
def view (m : AD) : ArchData.Spec := ⟨m.lsb, m.fill, m.fsz, m.size, m.inits, m.byteAt⟩

theorem Fine.rep {m : AD} (f : Fine m) : ArchData.Rep m (view m) := ⟨f.1, rfl, rfl, rfl, rfl, rfl, f.2, fun _ => rfl⟩

theorem build_fine {fs : List Config} {ads : List AD} (hk : ∀ f ∈ fs, f.ok) (hb : build fs = some ads) : ∀ m ∈ ads, Fine m := by
  have h := build_rep hk hb
  generalize (fs.map fun f => ArchData.Spec.init f.lsb f.fill f.fsz f.size f.inits) = sp at h
  clear hb hk
  induction ads generalizing sp with
  | nil => intro m hm; cases hm
  | cons a ads ih =>
    cases sp with
    | nil => exact h.elim
    | cons s sp =>
      intro m hm
      rcases List.mem_cons.1 hm with e | hm
      · subst e; exact ⟨h.1.wf, h.1.short⟩
      · exact ih sp h.2 m hm

theorem like_of {m a b : AD} (h : Later m a) (g : Later m b) : Like a b :=
  ⟨h.2.1.trans g.2.1.symm, h.2.2.1.trans g.2.2.1.symm, h.2.2.2.1.trans g.2.2.2.1.symm, h.2.2.2.2.2.1.trans g.2.2.2.2.2.1.symm⟩

theorem likes_of : ∀ {ms as bs : List AD}, All2 Later ms as → All2 Later ms bs →
    All2 (fun a b => WF a ∧ WF b ∧ Like a b) as bs
  | [], [], [], _, _ => trivial
  | _ :: _, _ :: _, _ :: _, h, g => ⟨⟨h.1.1, g.1.1, like_of h.1 g.1⟩, likes_of h.2 g.2⟩
  | [], [], _ :: _, _, g => g.elim
  | [], _ :: _, _, h, _ => h.elim
  | _ :: _, [], _, h, _ => h.elim
  | _ :: _, _ :: _, [], _, g => g.elim

/-- a read of the `k`-th memory -/
def rd (k a n : Nat) : Op := .cp (.access k (.read a n))

theorem rd_step (c : CP) (k a n : Nat) : (step c (rd k a n)).2 =
    .cp (match c.ads[k]? with | none => .threw | some m => .mem (m.step (.read a n)).2) := by
  unfold step rd CP.step
  dsimp only
  cases c.ads[k]? <;> rfl

theorem read_like {a b : AD} (fa : Fine a) (fb : Fine b) (h : Like a b) (e : a.byteAt = b.byteAt) (x n : Nat) (hn : n < 2 ^ 63) :
    (a.step (.read x n)).2 = (b.step (.read x n)).2 := by
  rw [(ArchData.rep_read fa.rep x n hn).2, (ArchData.rep_read fb.rep x n hn).2]
  unfold ArchData.Spec.step ArchData.Spec.inLine ArchData.Spec.load view
  dsimp only
  rw [h.1, h.2.2.2, e]

theorem rd_same {c d : CP} : ∀ {as bs : List AD}, c.ads = as → d.ads = bs → (∀ m ∈ as, Fine m) → (∀ m ∈ bs, Fine m) →
    All2 (fun a b => WF a ∧ WF b ∧ Like a b) as bs → as.map AD.byteAt = bs.map AD.byteAt → ∀ (k x n : Nat), n < 2 ^ 63 →
    (step c (rd k x n)).2 = (step d (rd k x n)).2 := by
  intro as bs ha hb fa fb h e k x n hn
  rw [rd_step, rd_step, ha, hb]
  clear ha hb
  induction as generalizing bs k with
  | nil =>
    cases bs with
    | nil => rfl
    | cons => exact h.elim
  | cons a as ih =>
    cases bs with
    | nil => exact h.elim
    | cons b bs =>
      rw [List.map_cons, List.map_cons] at e
      injection e with e1 e2
      cases k with
      | zero =>
        show Res.cp (.mem _) = Res.cp (.mem _)
        rw [read_like (fa a (List.mem_cons_self ..)) (fb b (List.mem_cons_self ..)) h.1.2.2 e1 x n hn]
      | succ k =>
        simp only [List.getElem?_cons_succ]
        exact ih (fun m hm => fa m (List.mem_cons_of_mem _ hm)) (fun m hm => fb m (List.mem_cons_of_mem _ hm)) h.2 e2 k

theorem undirty_bytes {ms : List AD} (f : ∀ m ∈ ms, Fine m) : (ms.map undirty).map AD.byteAt = ms.map AD.byteAt := by
  rw [List.map_map]
  apply List.map_congr_left
  intro m hm
  exact funext (undirty_spec (f m hm).1).2.2

theorem created_ads {c c' : CP} {force : Bool} {r : Checkpoint.Res} (h : c.create force = (c', r)) (f : ∀ m ∈ c.ads, Fine m) :
    c'.ads.map AD.byteAt = c.ads.map AD.byteAt ∧ All2 Later c.ads c'.ads := by
  have := create_ads c force
  rw [h] at this
  dsimp only at this
  rcases this with e | e
  · rw [e]; exact ⟨rfl, all_refl f⟩
  · rw [e]; exact ⟨undirty_bytes f, all_undirty f⟩

/-- what a successful save leaves and writes -/
theorem saved {c : CP} {id : Nat} {file : List UInt8} (f : ∀ m ∈ c.ads, Fine m) (h : (step c .save).2 = .saved id file) :
    (∃ ws, file = writeAll ws ∧ All2 Later c.ads ws ∧ ws.map AD.byteAt = c.ads.map AD.byteAt) ∧
    All2 Later c.ads (step c .save).1.ads ∧ (step c .save).1.ads.map AD.byteAt = c.ads.map AD.byteAt := by
  unfold step at h ⊢
  dsimp only at h ⊢
  have key : ∀ c' r, c.create true = (c', r) → c'.ads.map AD.byteAt = c.ads.map AD.byteAt ∧ All2 Later c.ads c'.ads :=
    fun _ _ e => created_ads e f
  generalize c.create true = z at h key
  obtain ⟨c', r⟩ := z
  obtain ⟨k1, k2⟩ := key c' r rfl
  cases r with
  | created i snap =>
    dsimp only at h
    injection h with h1 h2
    subst h2
    have fc := all_fine k2 f
    exact ⟨⟨c'.ads, rfl, k2, k1⟩, all_trans k2 (all_undirty fc), (undirty_bytes fc).trans k1⟩
  | _ => cases h

/-- C231: a checkpoint file restores what was saved. For all memories and all histories of accesses, checkpoints, saves and
restores (also of damaged files): a file written by `save` is accepted by every simulation with the same memories, whatever state
that is in and whatever follows in the file, and afterwards every read of every memory answers as it did when the file was saved.
Saving changes no read either. -/
theorem C231_roundtrip {fs : List Config} {ads : List AD} (hk : ∀ f ∈ fs, f.ok) (hb : build fs = some ads)
    (os os' : List Op) (ho : ∀ o ∈ os, Fair o) (ho' : ∀ o ∈ os', Fair o) (id : Nat) (file junk : List UInt8)
    (hs : (step (runOps step (CP.init ads) os).1 .save).2 = .saved id file) :
    (step (runOps step (CP.init ads) os').1 (.restore (file ++ junk))).2 = .restored ∧
    (∀ k a n, n < 2 ^ 63 → (step (step (runOps step (CP.init ads) os').1 (.restore (file ++ junk))).1 (rd k a n)).2 =
      (step (runOps step (CP.init ads) os).1 (rd k a n)).2) ∧
    ∀ k a n, n < 2 ^ 63 → (step (step (runOps step (CP.init ads) os).1 .save).1 (rd k a n)).2 =
      (step (runOps step (CP.init ads) os).1 (rd k a n)).2 := by
  have f0 : ∀ m ∈ (CP.init ads).ads, Fine m := build_fine hk hb
  have h1 := all_run os (CP.init ads) f0 ho
  have h2 := all_run os' (CP.init ads) f0 ho'
  generalize (runOps step (CP.init ads) os).1 = c at h1 hs ⊢
  generalize (runOps step (CP.init ads) os').1 = d at h2 ⊢
  have fc := all_fine h1 f0
  obtain ⟨⟨ws, e1, e2, e3⟩, s2, s3⟩ := saved fc hs
  subst e1
  obtain ⟨qs, g1, g2, g3⟩ := restoreAll_spec ws d.ads (likes_of h2 (all_trans h1 e2)) junk
  have g2' : All2 Later d.ads qs := g2
  have hstep : step d (.restore (writeAll ws ++ junk)) = ({ d with ads := qs }, .restored) := by
    unfold step
    dsimp only
    rw [g1]
    rfl
  refine ⟨by rw [hstep], ?_, ?_⟩
  · intro k a n hn
    rw [hstep]
    have h3 := all_trans h2 g2'
    exact rd_same (c := { d with ads := qs }) rfl rfl (all_fine h3 f0) fc (likes_of h3 h1) (g3.trans e3) k a n hn
  · intro k a n hn
    have h3 := all_trans h1 s2
    exact rd_same rfl rfl (all_fine h3 f0) fc (likes_of h3 h1) s3 k a n hn

/-- bytes that are white space, control characters of the format, and both kinds of memories -/
def demoSave : List Op :=
  [.cp (.access 0 (.write 1 [32, 76, 69])), .cp (.create false), .cp (.access 1 (.write 16 [10, 69])), .cp (.access 0 (.write 8 [9])), .cp (.load 1),
    .restore [69, 76], .cp (.access 0 (.write 4 [32, 32, 76, 69]))]

instance (o : Op) : Decidable (Fair o) := by
  cases o with
  | cp o =>
    cases o with
    | access k o => unfold Fair small; cases o <;> infer_instance
    | _ => unfold Fair; infer_instance
  | _ => unfold Fair; infer_instance

example : (∀ f ∈ demoFs, f.ok) ∧ (build demoFs).isSome = true ∧ (∀ o ∈ demoSave, Fair o) ∧
    (step (runOps step (CP.init ((build demoFs).getD [])) demoSave).1 .save).2 =
      .saved 2 [76, 1, 0, 0, 0, 0, 0, 0, 0, 32, 32, 76, 69, 69,
        76, 1, 0, 0, 0, 0, 0, 0, 0, 187, 170, 187, 170, 187, 170, 187, 170, 76, 2, 0, 0, 0, 0, 0, 0, 0, 187, 170, 187, 170, 187, 170, 187, 170,
        76, 0, 0, 0, 0, 0, 0, 0, 0, 187, 170, 187, 170, 187, 170, 187, 170, 69] ∧
    (runOps step (CP.init ((build demoFs).getD [])) (demoSave ++ [.save, .cp (.access 0 (.write 5 [1, 2])), .cp (.access 0 (.write 12 [3])),
      .restore [76, 1, 0, 0, 0, 0, 0, 0, 0, 32, 32, 76, 69, 69,
        76, 1, 0, 0, 0, 0, 0, 0, 0, 187, 170, 187, 170, 187, 170, 187, 170, 76, 2, 0, 0, 0, 0, 0, 0, 0, 187, 170, 187, 170, 187, 170, 187, 170,
        76, 0, 0, 0, 0, 0, 0, 0, 0, 187, 170, 187, 170, 187, 170, 187, 170, 69],
      rd 0 4 4, rd 0 12 2])).2.drop 10 = [.restored, .cp (.mem (.data [32, 32, 76, 69])), .cp (.mem (.data [0, 0]))] := by
  refine ⟨?_, by decide +kernel, by decide +kernel, by decide +kernel, by decide +kernel⟩
  intro f hf
  simp only [demoFs, List.mem_cons, List.not_mem_nil, or_false] at hf
  rcases hf with rfl | rfl <;> exact ⟨by decide, by decide⟩

/-- C232: a file that was cut short anywhere is refused: for all memories, histories and proper prefixes of a file written by
`save`, `restore` throws. -/
theorem C232_truncated {fs : List Config} {ads : List AD} (hk : ∀ f ∈ fs, f.ok) (hb : build fs = some ads)
    (os os' : List Op) (ho : ∀ o ∈ os, Fair o) (ho' : ∀ o ∈ os', Fair o) (id : Nat) (file : List UInt8)
    (hs : (step (runOps step (CP.init ads) os).1 .save).2 = .saved id file) (n : Nat) (hn : n < file.length) :
    (step (runOps step (CP.init ads) os').1 (.restore (file.take n))).2 = .threw := by
  have f0 : ∀ m ∈ (CP.init ads).ads, Fine m := build_fine hk hb
  have h1 := all_run os (CP.init ads) f0 ho
  have h2 := all_run os' (CP.init ads) f0 ho'
  generalize (runOps step (CP.init ads) os).1 = c at h1 hs ⊢
  generalize (runOps step (CP.init ads) os').1 = d at h2 ⊢
  obtain ⟨⟨ws, e1, e2, e3⟩, s2, s3⟩ := saved (all_fine h1 f0) hs
  have hcut := restoreAll_cut ws d.ads (likes_of h2 (all_trans h1 e2)) (file.take n) (file.drop n)
    (by intro h; have := congrArg List.length h; rw [List.length_drop] at this; simp at this; omega)
    (by rw [List.take_append_drop, e1])
  unfold step
  dsimp only
  rw [hcut]
  rfl

example : (step (runOps step (CP.init ((build demoFs).getD [])) [.cp (.access 0 (.write 1 [7]))]).1 .save).2 =
    .saved 1 [76, 0, 0, 0, 0, 0, 0, 0, 0, 0, 7, 0, 0, 69, 76, 1, 0, 0, 0, 0, 0, 0, 0, 1, 170, 187, 170, 187, 170, 187, 170, 69] ∧
    (step (CP.init ((build demoFs).getD [])) (.restore [76, 0, 0, 0, 0, 0, 0, 0, 0, 0, 7, 0, 0, 69])).2 = .threw := by
  refine ⟨by decide +kernel, by decide +kernel⟩

/-- C232, violated part: a restore that throws does not leave the memories as they were: those that were restored before the error
keep the contents of the file, and the others may be blank. -/
theorem C232_unchanged_violated :
    (runOps step start [.cp (.access 0 (.write 1 [5])), .cp (.access 0 (.write 8 [6])), .restore [76, 0, 0, 0, 0, 0, 0, 0, 0, 0, 7], rd 0 0 4, rd 0 8 4]).2.drop 2 =
      [.threw, .cp (.mem (.data [0, 7, 0, 0])), .cp (.mem (.data [0, 0, 0, 0]))] := by decide +kernel

/-! ### checkpoints in memory after a file was restored -/

/-- calls before the first checkpoint -/
def Before : Op → Prop
  | .cp (.access _ o) => small o
  | .restore _ => True
  | _ => False

theorem before_init : ∀ (os : List Op) (ads : List AD), (∀ o ∈ os, Before o) →
    ∃ ads', (runOps step (CP.init ads) os).1 = CP.init ads'
  | [], ads, _ => ⟨ads, rfl⟩
  | o :: os, ads, h => by
    have ho := h o (List.mem_cons_self ..)
    have key : ∃ a, (step (CP.init ads) o).1 = CP.init a := by
      cases o with
      | save => exact ho.elim
      | restore f => exact ⟨_, rfl⟩
      | cp o =>
        cases o with
        | access k o =>
          unfold step CP.step
          dsimp only
          cases (CP.init ads).ads[k]? with
          | none => exact ⟨_, rfl⟩
          | some m => exact ⟨_, rfl⟩
        | _ => exact ho.elim
    obtain ⟨a, e⟩ := key
    show ∃ ads', (runOps step (step (CP.init ads) o).1 os).1 = _
    rw [e]
    exact before_init os a (fun o ho => h o (List.mem_cons_of_mem _ ho))

theorem rep_views : ∀ {ads : List AD}, (∀ m ∈ ads, Fine m) → All2 ArchData.Rep ads (ads.map view)
  | [], _ => trivial
  | m :: _, h => ⟨(h m (List.mem_cons_self ..)).rep, rep_views fun m hm => h m (List.mem_cons_of_mem _ hm)⟩

/-- C233: a file restored before the first checkpoint is the state that checkpoints go back to: after any accesses and restores,
loading a checkpoint created later makes every read answer as it did when the checkpoint was created. Missing: files restored
when there are checkpoints (false, see below), and the histories that C49 leaves out. -/
theorem C233_before_partial {fs : List Config} {ads : List AD} (hk : ∀ f ∈ fs, f.ok) (hb : build fs = some ads)
    (os : List Op) (ho : ∀ o ∈ os, Before o) (pre mid : List Checkpoint.Op) (force snap : Bool) (id : Nat)
    (hl : Legal (Spec.init ((runOps step (CP.init ads) os).1.ads.map view)) (pre ++ [.create force] ++ mid ++ [.load id]))
    (hc : ((runOps CP.step (runOps step (CP.init ads) os).1 pre).1.step (.create force)).2 = .created id snap)
    (k a n : Nat) (hn : n < 2 ^ 63) :
    ((runOps CP.step (runOps step (CP.init ads) os).1 (pre ++ [.create force] ++ mid ++ [.load id])).1.step (.access k (.read a n))).2 =
      ((runOps CP.step (runOps step (CP.init ads) os).1 (pre ++ [.create force])).1.step (.access k (.read a n))).2 := by
  have fair : ∀ o ∈ os, Fair o := by
    intro o h
    have := ho o h
    cases o with
    | cp o => cases o with | access k o => exact this | _ => exact this.elim
    | save => exact this.elim
    | restore f => trivial
  have h1 := all_run os (CP.init ads) (build_fine hk hb) fair
  obtain ⟨ads', e⟩ := before_init os ads ho
  rw [e] at hl hc h1 ⊢
  have f1 : ∀ m ∈ ads', Fine m := all_fine h1 (build_fine hk hb)
  have init := rep_init (rep_views f1)
  have reach : ∀ os, Legal (Spec.init (ads'.map view)) os →
      Rep ((ads'.map view).map cfgOf) (runOps CP.step (CP.init ads') os).1 (runOps Spec.step (Spec.init (ads'.map view)) os).1 :=
    fun os hl => (runOps_simulation_legal CP.step Spec.step Spec.legal (Rep _) (fun c s o => rep_step _ c s o) _ _ init os hl).1
  obtain ⟨hl3, hl4⟩ := legal_append hl
  obtain ⟨hl2, _⟩ := legal_append hl3
  obtain ⟨hl1, _⟩ := legal_append hl2
  have r0 := reach pre hl1
  have r1 := reach _ hl2
  have r2 := reach _ hl3
  have r3 := reach _ hl
  rw [read_obs r3 k a n hn, read_obs r1 k a n hn]
  apply read_same r3.ofs r1.ofs
  have hc' : ((runOps Spec.step (Spec.init (ads'.map view)) pre).1.step (.create force)).2 = .created id snap := by
    rw [← hc]
    have hlc : (runOps Spec.step (Spec.init (ads'.map view)) pre).1.legal (.create force) := trivial
    exact (rep_step _ _ _ _ r0 hlc).2.symm
  obtain ⟨k1, g1, g2, _⟩ := created_mems hc'
  rw [← runOps_snoc] at g1 g2
  obtain ⟨k2, g3, g4, _⟩ := chk_stable id mid _ k1 g1
  rw [← runOps_append] at g3
  have hlen : k2.mems.length = (runOps Spec.step (Spec.init (ads'.map view)) (pre ++ [.create force] ++ mid)).1.ads.length := by
    rw [g4, g2, Spec.mems, List.length_map, ← r1.ofs.length, ← r2.ofs.length]
  rw [runOps_snoc, loaded_mems g3 hlen, g4, g2]
  rfl

example : (∀ o ∈ [Op.cp (.access 0 (.write 1 [5])), .restore [76, 0, 0, 0, 0, 0, 0, 0, 0, 0, 7, 0, 0, 69]], Before o) ∧
    Legal (Spec.init ((runOps step start [Op.cp (.access 0 (.write 1 [5])), .restore [76, 0, 0, 0, 0, 0, 0, 0, 0, 0, 7, 0, 0, 69]]).1.ads.map view))
      ([.access 0 (.write 2 [8])] ++ [.create false] ++ [.access 0 (.write 1 [9]), .create false] ++ [.load 1]) ∧
    ((runOps CP.step (runOps step start [Op.cp (.access 0 (.write 1 [5])), .restore [76, 0, 0, 0, 0, 0, 0, 0, 0, 0, 7, 0, 0, 69]]).1
      ([.access 0 (.write 2 [8])] ++ [.create false] ++ [.access 0 (.write 1 [9]), .create false] ++ [.load 1])).1.step (.access 0 (.read 0 4))).2 =
      .mem (.data [0, 7, 8, 0]) := by
  refine ⟨?_, by decide +kernel, by decide +kernel⟩
  intro o ho
  simp only [List.mem_cons, List.not_mem_nil, or_false] at ho
  rcases ho with rfl | rfl
  · show ([5] : List UInt8).length < 2 ^ 63; decide
  · trivial

/-- C233, violated: a file is restored when there are checkpoints, and a checkpoint is created. Loading that checkpoint brings back
the contents from before the restore: the restored lines are not marked as changed, so the checkpoint, a delta, leaves them out. -/
theorem C233_delta_violated :
    (runOps step start [.cp (.access 0 (.write 1 [1])), .save, .cp (.access 0 (.write 1 [2])), .cp (.create false),
      .restore [76, 0, 0, 0, 0, 0, 0, 0, 0, 0, 1, 0, 0, 69], .cp (.create false), rd 0 0 4, .cp (.load 3), rd 0 0 4]).2 =
    [.cp (.mem .ok), .saved 1 [76, 0, 0, 0, 0, 0, 0, 0, 0, 0, 1, 0, 0, 69], .cp (.mem .ok), .cp (.created 2 false),
      .restored, .cp (.created 3 false), .cp (.mem (.data [0, 1, 0, 0])), .cp .done, .cp (.mem (.data [0, 2, 0, 0]))] := by decide +kernel

end Sparta.PFile
