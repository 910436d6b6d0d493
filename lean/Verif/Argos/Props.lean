import Verif.Argos.Window
/-! C223 - C227 -/
namespace Sparta.Argos

/-- a header -/
def hd (start stop id loc flags : Nat) : Hdr :=
  { start := start, stop := stop, parent := 0, id := id, display := 4096, loc := loc, flags := flags, proc := 0 }

/-- "uid", a number of two bytes -/
def uid (v : Nat) : Field := { name := [117, 105, 100], size := 2, val := v, num := true, str := [], fmt := 2 }

/-- "st", a number of one byte with the string "ok" for 1 -/
def stt (v : Nat) : Field := { name := [115, 116], size := 1, val := v, num := true, str := if v = 1 then [111, 107] else [], fmt := 0 }

/-- "mn", a string -/
def mn (t : Text) : Field := { name := [109, 110], size := 65535, val := 0, num := false, str := t, fmt := 0 }

/-- a pair record with the three fields at location 3 -/
def pr (start stop id u v : Nat) (t : Text) : Rec := .pair (hd start stop id 3 4) 7 [uid u, stt v, mn t]

def note (start stop id : Nat) (t : Text) : Rec := .annot (hd start stop id 5 1) t

def demoSchema : Schema where
  kind := fun _ => 7
  shape := fun _ => [([117, 105, 100], 2, true, 2), ([115, 116], 1, true, 0), ([109, 110], 0, false, 0)]
  label := fun _ i v => if i = 1 ∧ v = 1 then [111, 107] else []

/-- a database with an index every 10 ticks -/
def demo : List Op :=
  [.index, .record (pr 0 3 1 300 1 [97, 58]), .record (note 1 10 2 [120]), .index, .record (pr 10 12 3 17 0 []), .record (note 12 18 4 [121, 10]), .index]

theorem pr_ok (start stop id u v : Nat) (t : Text) (h1 : start < 2 ^ 64) (h2 : stop < 2 ^ 64) (h3 : id < 2 ^ 64) (h4 : u < 65536) (h5 : v < 256)
    (h6 : t.length < 65536) : (pr start stop id u v t).ok demoSchema := by
  have hz : 0 < 2 ^ 64 := by decide
  have hz' : 4096 < 2 ^ 64 := by decide
  refine ⟨⟨h1, h2, hz, h3, hz', (by omega : (3 : Nat) < 2 ^ 32), (by omega : (4 : Nat) < 2 ^ 16), (by omega : (0 : Nat) < 2 ^ 16), rfl⟩, rfl, rfl, ⟨by simp [uid, plainText], fun _ => ?_, fun h => ?_⟩, ⟨by simp [stt, plainText], fun _ => ?_, fun h => ?_⟩,
    ⟨by simp [mn, plainText], fun h => ?_, fun _ => h6⟩, trivial⟩
  · exact ⟨(by omega : 2 ≤ 8), h4, by simp [uid, demoSchema], fun h => absurd rfl h⟩
  · cases h
  · refine ⟨(by omega : 1 ≤ 8), h5, by simp [stt, demoSchema], fun _ => ?_⟩
    unfold stt
    dsimp only
    split
    · simp [plainText]
    · rename_i h7 h8
      simp [stt, h8] at h7
  · cases h
  · cases h

theorem note_ok (start stop id : Nat) (t : Text) (h1 : start < 2 ^ 64) (h2 : stop < 2 ^ 64) (h3 : id < 2 ^ 64) (h6 : t.length < 65536) :
    (note start stop id t).ok demoSchema := by
  have hz : 0 < 2 ^ 64 := by decide
  have hz' : 4096 < 2 ^ 64 := by decide
  exact ⟨⟨h1, h2, hz, h3, hz', (by omega : (5 : Nat) < 2 ^ 32), (by omega : (1 : Nat) < 2 ^ 16), (by omega : (0 : Nat) < 2 ^ 16), rfl⟩, h6⟩

theorem demo_ok : ∀ r ∈ recsOf demo, r.ok demoSchema := by
  intro r hr
  simp only [demo, recsOf, List.mem_cons, List.not_mem_nil, or_false] at hr
  rcases hr with e | e | e | e <;> rw [e]
  · exact pr_ok _ _ _ _ _ _ (by decide) (by decide) (by decide) (by decide) (by decide) (by decide)
  · exact note_ok _ _ _ _ (by decide) (by decide) (by decide) (by decide)
  · exact pr_ok _ _ _ _ _ _ (by decide) (by decide) (by decide) (by decide) (by decide) (by decide)
  · exact note_ok _ _ _ _ (by decide) (by decide) (by decide) (by decide)

theorem demo_labelled : ∃ r ∈ recsOf demo, r.labelled = true := ⟨pr 0 3 1 300 1 [97, 58], by simp [demo, recsOf], rfl⟩

theorem demo_timed : Timed 10 0 demo := by
  simp [demo, Timed, pr, note, hd, Rec.hdr]

deriving instance DecidableEq for Except

/-- it is opened, and the reader passes -/
def okAnd (x : Except Err Reader) (q : Reader → Bool) : Bool := match x with
  | .ok R => q R
  | .error _ => false

theorem opened {q : Reader → Prop} [DecidablePred q] (x : Except Err Reader) (h : okAnd x (fun R => decide (q R)) = true) : ∃ R, x = .ok R ∧ q R := by
  cases x with
  | error _ => cases h
  | ok R => exact ⟨R, rfl, of_decide_eq_true h⟩

/-! ### C223: what is written is read -/

/-- A database that was written by the first outputter of a process and closed can be opened if some field of some pair record has a
string for its value.  A window gives the transactions that were written between the indexes around it, in that order, unchanged;
annotations that are not in the window are left out. -/
theorem C223_round_trip_partial (S : Schema) (H : Nat) (hH : 0 < H) (hH' : H < 2 ^ 64) (ops : List Op) (ok : ∀ r ∈ recsOf ops, r.ok S)
    (hl : ∃ r ∈ recsOf ops, r.labelled = true) (hsize : size (recsOf ops) < 2 ^ 64) :
    ∃ R, Reader.new (database H ops) = .ok R ∧ R.H = H ∧ ∀ s e, s / H * 8 + 36 < 2 ^ 63 → e + H ≤ 2 ^ 64 → (e + H - 1) / H * 8 + 36 < 2 ^ 63 →
      R.window s e = .ok ((((before ((e + H - 1) / H) ops).drop (before (s / H) ops).length).filter (fun r => !r.outside s e)).map Rec.shown) := by
  obtain ⟨R, h1, I, _⟩ := open_ok S H hH hH' ops ok hl hsize
  exact ⟨R, h1, I.beat, fun s e hs he he' => window_eq I hH hsize s e hs he he'⟩

example : ∃ R, Reader.new (database 10 demo) = .ok R ∧ R.window 11 15 = .ok [(pr 10 12 3 17 0 []).shown, (note 12 18 4 [121, 10]).shown] := by
  obtain ⟨R, h1, _, h2⟩ := C223_round_trip_partial demoSchema 10 (by decide) (by decide) demo demo_ok demo_labelled (by decide)
  exact ⟨R, h1, h2 11 15 (by decide) (by decide) (by decide)⟩

/-- what a field of a pair record looks like -/
example : (pr 0 3 1 300 1 [97, 58]).shown = .pair (hd 0 3 1 3 4) [pairid, [117, 105, 100], [115, 116], [109, 110]] [2, 2, 1, 0] [0, 2, 0, 0]
    [(7, false), (300, true), (1, false), (2 ^ 64 - 1, true)] [[55], [48, 120, 49, 50, 99], [111, 107], [97, 58]] := by decide +kernel

/-- all of it, when the window covers everything -/
theorem C223_everything (S : Schema) (H : Nat) (hH : 0 < H) (ops : List Op) (ok : ∀ r ∈ recsOf ops, r.ok S)
    (hl : ∃ r ∈ recsOf ops, r.labelled = true) (hsize : size (recsOf ops) < 2 ^ 64) (e : Nat) (he : e + H ≤ 2 ^ 64) (he' : (e + H - 1) / H * 8 + 36 < 2 ^ 63)
    (hm : ∀ n, (before n ops).length < (recsOf ops).length → n < (e + H - 1) / H) (hin : ∀ r ∈ recsOf ops, r.hdr.start ≤ e)
    (hfirst : before 0 ops = []) :
    ∃ R, Reader.new (database H ops) = .ok R ∧ R.window 0 e = .ok ((recsOf ops).map Rec.shown) := by
  have hH' : H < 2 ^ 64 := by
    rcases Nat.eq_zero_or_pos e with h0 | h0
    · subst h0
      rcases Nat.lt_or_ge H (2 ^ 64) with h | h
      · exact h
      · exfalso
        have h1 : (0 + H - 1) / H = 0 := Nat.div_eq_of_lt (by omega)
        obtain ⟨r, hr, _⟩ := hl
        have := hm 0 (by rw [hfirst]; exact List.length_pos_of_mem hr)
        omega
    · omega
  obtain ⟨R, h1, _, h2⟩ := C223_round_trip_partial S H hH hH' ops ok hl hsize
  refine ⟨R, h1, ?_⟩
  rw [h2 0 e (by rw [Nat.zero_div]; omega) he he', Nat.zero_div, hfirst, List.length_nil, List.drop_zero]
  have hall : before ((e + H - 1) / H) ops = recsOf ops := by
    obtain ⟨t, ht⟩ := before_recsOf ((e + H - 1) / H) ops
    rcases Nat.lt_or_ge (before ((e + H - 1) / H) ops).length (recsOf ops).length with h | h
    · exact absurd (hm _ h) (Nat.lt_irrefl _)
    · have hle := congrArg List.length ht
      rw [List.length_append] at hle
      have : t = [] := List.length_eq_zero_iff.mp (by omega)
      conv => lhs; rw [← List.append_nil (before ((e + H - 1) / H) ops), ← this, ← ht]
  rw [hall]
  congr 2
  rw [List.filter_eq_self]
  intro r hr
  have := hin r hr
  cases r <;> simp_all [Rec.outside, Rec.hdr]

example : ∃ R, Reader.new (database 10 demo) = .ok R ∧ R.window 0 20 = .ok ((recsOf demo).map Rec.shown) :=
  C223_everything demoSchema 10 (by decide) demo demo_ok demo_labelled (by decide) 20 (by decide) (by decide)
    (fun n h => by
      rcases Nat.lt_or_ge n 2 with h2 | h2
      · exact Nat.lt_of_lt_of_le h2 (by decide)
      · obtain ⟨m, rfl⟩ : ∃ m, n = m + 2 := ⟨n - 2, by omega⟩
        cases m <;> simp [demo, before, recsOf] at h)
    (by decide) rfl

/-- no string is written if no field has one -/
theorem strs_empty (o : Out) (ops : List Op) (h : ∀ r ∈ recsOf ops, r.labelled = false) : (o.run ops).files.strs = o.files.strs := by
  have hp : ∀ (o : Out) pid i (fs : List Field), fs.any (fun f => f.num && !f.str.isEmpty) = false → (o.putStrs pid i fs).files.strs = o.files.strs := by
    intro o pid i fs
    induction fs generalizing o i with
    | nil => intro _; rfl
    | cons f fs ih =>
      intro h
      rw [List.any_cons, Bool.or_eq_false_iff] at h
      rw [Out.putStrs, ih _ _ h.2]
      unfold Out.putStr
      rw [if_neg]
      rintro ⟨h1, h2, _⟩
      have := h.1
      rw [h1] at this
      simp [h2] at this
  induction ops generalizing o with
  | nil => rfl
  | cons op ops ih =>
    have : o.run (op :: ops) = (o.step op).run ops := rfl
    cases op with
    | index => rw [this, ih _ h]; rfl
    | record r =>
      rw [this, ih _ (fun x hx => h x (by simp [recsOf, hx]))]
      have hr := h r (by simp [recsOf])
      cases r with
      | pair hh pid fs =>
        show (Out.putStrs _ pid 0 fs).files.strs = _
        rw [hp _ _ _ _ hr]
        unfold Out.putPair Out.putLoc
        split <;> split <;> rfl
      | _ => rfl

/-- Violated: a database in which no field of a pair record has a string for its value cannot be opened, since a file is empty.  So it
is with annotations only. -/
theorem C223_no_strings_violated (H : Nat) (ops : List Op) (h : ∀ r ∈ recsOf ops, r.labelled = false) :
    Reader.new (database H ops) = .error .empty := by
  have : (database H ops).strs = [] := strs_empty (Out.new H fresh) ops h
  unfold Reader.new
  rw [if_pos (by simp [this])]

example : Reader.new (database 10 [.index, .record (note 1 4 1 [120]), .index]) = .error .empty :=
  C223_no_strings_violated 10 _ (by decide)

/-- the next database of the same process -/
def nextDatabase (H : Nat) (first ops : List Op) : Files := ((Out.new H ((Out.new H fresh).run first).st).run ops).close

/-- Violated: in the next database of a process, the locations, kinds and strings of the ones before are missing: it cannot be opened,
or the windows throw. -/
theorem C223_second_violated : Reader.new (nextDatabase 10 demo demo) = .error .empty ∧
    (∃ R, Reader.new (nextDatabase 10 demo (demo ++ [.record (.pair (hd 20 25 5 4 4) 8 [uid 3, stt 1])])) = .ok R ∧ R.window 0 9 = .error .at) ∧
    ∃ R, Reader.new (database 10 (demo ++ [.record (.pair (hd 20 25 5 4 4) 8 [uid 3, stt 1])])) = .ok R ∧
      R.window 0 9 = .ok [(pr 0 3 1 300 1 [97, 58]).shown, (note 1 10 2 [120]).shown] := by
  refine ⟨by decide +kernel, ?_, ?_⟩
  · exact opened _ (by decide +kernel)
  · exact opened _ (by decide +kernel)

/-! ### C224: windows of time -/

/-- If transactions are written as the collector writes them, a window gives exactly those that end after `start`, rounded down to an
interval, and not after `stop`, rounded up; of the annotations only those that are in the window. -/
theorem C224_window (S : Schema) (H : Nat) (hH : 0 < H) (hH' : H < 2 ^ 64) (ops : List Op) (ok : ∀ r ∈ recsOf ops, r.ok S)
    (hl : ∃ r ∈ recsOf ops, r.labelled = true) (hsize : size (recsOf ops) < 2 ^ 64) (ht : Timed H 0 ops) :
    ∃ R, Reader.new (database H ops) = .ok R ∧ ∀ s e, s / H * 8 + 36 < 2 ^ 63 → e + H ≤ 2 ^ 64 → (e + H - 1) / H * 8 + 36 < 2 ^ 63 →
      R.window s e = .ok (((recsOf ops).filter (fun r => decide (s / H * H < r.hdr.stop) && decide (r.hdr.stop ≤ (e + H - 1) / H * H) &&
        !r.outside s e)).map Rec.shown) := by
  obtain ⟨R, h1, _, h2⟩ := C223_round_trip_partial S H hH hH' ops ok hl hsize
  refine ⟨R, h1, fun s e hs he he' => ?_⟩
  rw [h2 s e hs he he', between_timed H _ _ ops ht, List.filter_filter]
  congr 3
  funext r
  cases r.outside s e <;> simp

example : ∃ R, Reader.new (database 10 demo) = .ok R ∧ R.window 13 14 = .ok [(pr 10 12 3 17 0 []).shown, (note 12 18 4 [121, 10]).shown] := by
  obtain ⟨R, h1, h2⟩ := C224_window demoSchema 10 (by decide) (by decide) demo demo_ok demo_labelled (by decide) demo_timed
  exact ⟨R, h1, h2 13 14 (by decide) (by decide) (by decide)⟩

/-- Nothing is missed: every transaction that has some time in `[start, stop)` is there. -/
theorem C224_complete (S : Schema) (H : Nat) (hH : 0 < H) (hH' : H < 2 ^ 64) (ops : List Op) (ok : ∀ r ∈ recsOf ops, r.ok S)
    (hl : ∃ r ∈ recsOf ops, r.labelled = true) (hsize : size (recsOf ops) < 2 ^ 64) (ht : Timed H 0 ops) :
    ∃ R, Reader.new (database H ops) = .ok R ∧ ∀ s e, s / H * 8 + 36 < 2 ^ 63 → e + H ≤ 2 ^ 64 → (e + H - 1) / H * 8 + 36 < 2 ^ 63 →
      ∃ l, R.window s e = .ok l ∧ ∀ r ∈ recsOf ops, r.hdr.start < e → s < r.hdr.stop → r.shown ∈ l := by
  obtain ⟨R, h1, h2⟩ := C224_window S H hH hH' ops ok hl hsize ht
  refine ⟨R, h1, fun s e hs he he' => ⟨_, h2 s e hs he he', ?_⟩⟩
  intro r hr ha hb
  apply List.mem_map_of_mem
  rw [List.mem_filter]
  refine ⟨hr, ?_⟩
  obtain ⟨m, m1, m2, m3⟩ := timed_mem H 0 ops ht r hr
  have c1 : s / H * H ≤ s := Nat.div_mul_le_self s H
  have c2 : e ≤ (e + H - 1) / H * H := by
    have h1 := Nat.div_add_mod (e + H - 1) H
    have h2 := Nat.mod_lt (e + H - 1) hH
    rw [Nat.mul_comm] at h1
    omega
  have c3 : m + 1 ≤ (e + H - 1) / H := by
    have : m * H < (e + H - 1) / H * H := by omega
    exact Nat.lt_of_mul_lt_mul_right this
  have c4 := Nat.mul_le_mul_right H c3
  simp only [Bool.and_eq_true, decide_eq_true_eq, Bool.not_eq_true']
  refine ⟨⟨by omega, by omega⟩, ?_⟩
  cases r with
  | annot h t =>
    simp only [Rec.hdr] at ha hb
    simp only [Rec.outside, decide_eq_false_iff_not]
    omega
  | _ => rfl

example : (note 12 18 4 [121, 10]) ∈ recsOf demo ∧ (note 12 18 4 [121, 10]).hdr.start < 13 ∧ 11 < (note 12 18 4 [121, 10]).hdr.stop := by decide

/-- No annotation of a window is outside of it. -/
theorem C224_annotations (S : Schema) (H : Nat) (hH : 0 < H) (hH' : H < 2 ^ 64) (ops : List Op) (ok : ∀ r ∈ recsOf ops, r.ok S)
    (hl : ∃ r ∈ recsOf ops, r.labelled = true) (hsize : size (recsOf ops) < 2 ^ 64) :
    ∃ R, Reader.new (database H ops) = .ok R ∧ ∀ s e, s / H * 8 + 36 < 2 ^ 63 → e + H ≤ 2 ^ 64 → (e + H - 1) / H * 8 + 36 < 2 ^ 63 →
      ∃ l, R.window s e = .ok l ∧ ∀ h t, .annot h t ∈ l → .annot h t ∈ recsOf ops ∧ s ≤ h.stop ∧ h.start ≤ e := by
  obtain ⟨R, h1, _, h2⟩ := C223_round_trip_partial S H hH hH' ops ok hl hsize
  refine ⟨R, h1, fun s e hs he he' => ⟨_, h2 s e hs he he', ?_⟩⟩
  intro h t hm
  obtain ⟨r, hr, e1⟩ := List.mem_map.mp hm
  rw [List.mem_filter] at hr
  cases r with
  | annot h' t' =>
    simp only [Rec.shown, Shown.annot.injEq] at e1
    obtain ⟨rfl, rfl⟩ := e1
    refine ⟨?_, ?_⟩
    · obtain ⟨x, hx⟩ := before_recsOf ((e + H - 1) / H) ops
      rw [hx]
      exact List.mem_append_left _ (List.mem_of_mem_drop hr.1)
    · have := hr.2
      simp only [Rec.outside, Bool.not_eq_true', decide_eq_false_iff_not] at this
      omega
  | _ => simp [Rec.shown] at e1

example : ∃ R, Reader.new (database 10 demo) = .ok R ∧ R.window 11 11 = .ok [(pr 10 12 3 17 0 []).shown] ∧
    (note 12 18 4 [121, 10]) ∈ (before 2 demo).drop (before 1 demo).length := opened _ (by decide +kernel)

/-- Violated: "transactions with TMEN of start WILL be included" (Reader.hpp 942-944): the one that ends at 10 is not in the window from
10 on.  "all transactions ending between [3000, 5000)" (Reader.hpp 951-954): in a window that starts at 4 there is none of the annotations
that end before. -/
theorem C224_documented_violated : ∃ R, Reader.new (database 10 (demo ++ [.record (note 20 22 5 []), .record (note 21 29 6 [])])) = .ok R ∧
    R.window 10 11 = .ok [(pr 10 12 3 17 0 []).shown] ∧ (note 1 10 2 [120]) ∈ recsOf demo ∧
    R.window 24 30 = .ok [(note 21 29 6 []).shown] := by
  exact opened _ (by decide +kernel)

/-- Violated: the end of a window is rounded up without regard to 2^64: a window to the last tick is empty. -/
theorem C224_last_tick_violated : ∃ R, Reader.new (database 10 demo) = .ok R ∧ R.window 0 (2 ^ 64 - 1) = .ok [] ∧
    R.window 0 20 = .ok ((recsOf demo).map Rec.shown) := by
  exact opened _ (by decide +kernel)

/-! ### C225: the first and the last cycle -/

/-- The first cycle is the start of the transaction that was written first, the last cycle is the one before the end of the
transaction that was written last.  Missing: the first cycle is the lowest. -/
theorem C225_first_last_partial (S : Schema) (H : Nat) (hH : 0 < H) (hH' : H < 2 ^ 64) (ops : List Op) (ok : ∀ r ∈ recsOf ops, r.ok S)
    (hl : ∃ r ∈ recsOf ops, r.labelled = true) (hsize : size (recsOf ops) < 2 ^ 64) (hpos : ∀ r ∈ recsOf ops, 0 < r.hdr.stop) :
    ∃ R a b, Reader.new (database H ops) = .ok R ∧ (recsOf ops).head? = some a ∧ (recsOf ops).getLast? = some b ∧ R.lo = a.hdr.start ∧
      R.hi + 1 = b.hdr.stop ∧ ((recsOf ops).Pairwise (fun x y => x.hdr.stop ≤ y.hdr.stop) → ∀ r ∈ recsOf ops, r.hdr.stop ≤ R.hi + 1) := by
  obtain ⟨R, h1, _, _, h3, h4⟩ := open_ok S H hH hH' ops ok hl hsize
  obtain ⟨r0, hr0, _⟩ := hl
  cases hh : (recsOf ops).head? with
  | none => rw [List.head?_eq_none_iff] at hh; rw [hh] at hr0; cases hr0
  | some a =>
    cases ht : (recsOf ops).getLast? with
    | none => rw [List.getLast?_eq_none_iff] at ht; rw [ht] at hr0; cases hr0
    | some b =>
      have hb := List.mem_of_getLast? ht
      have hb2 := hpos b hb
      obtain ⟨t, _, okb, _⟩ := Rec.split S b (ok b hb)
      have hb3 := okb.2.1
      have hhi : R.hi + 1 = b.hdr.stop := by
        have := h4 b ht
        rw [show b.hdr.stop + (2 ^ 64 - 1) = (b.hdr.stop - 1) + 2 ^ 64 by omega, Nat.add_mod_right, Nat.mod_eq_of_lt (by omega)] at this
        omega
      refine ⟨R, a, b, h1, rfl, rfl, h3 a hh, hhi, ?_⟩
      intro hp r hr
      obtain ⟨ys, hy⟩ := List.getLast?_eq_some_iff.mp ht
      rw [hy, List.pairwise_append] at hp
      rw [hy] at hr
      rw [hhi]
      rcases List.mem_append.mp hr with hr | hr
      · exact hp.2.2 r hr b (by simp)
      · rw [List.mem_singleton] at hr
        rw [hr]
        exact Nat.le_refl _

example : ∃ R, Reader.new (database 10 demo) = .ok R ∧ R.lo = 0 ∧ R.hi + 1 = 18 := by
  obtain ⟨R, a, b, h1, h2, h3, h4, h5, _⟩ :=
    C225_first_last_partial demoSchema 10 (by decide) (by decide) demo demo_ok demo_labelled (by decide) (by decide)
  simp only [demo, recsOf, List.head?_cons, Option.some.injEq] at h2
  simp only [demo, recsOf, List.getLast?_cons_cons, List.getLast?_singleton, Option.some.injEq] at h3
  subst h2; subst h3
  exact ⟨R, h1, h4, h5⟩

/-- Violated: transactions are written when they end, so the first cycle is not the lowest one. -/
theorem C225_first_violated : ∃ R, Reader.new (database 10 [.index, .record (pr 4 5 1 3 1 []), .record (note 0 8 2 [120]), .index]) = .ok R ∧ R.lo = 4 ∧
    R.window 0 8 = .ok [(pr 4 5 1 3 1 []).shown, (note 0 8 2 [120]).shown] := by
  exact opened _ (by decide +kernel)

/-! ### C226: the text of a value -/

/-- the digit that a character stands for -/
def digitOf (c : Nat) : Nat := if c < 58 then c - 48 else c - 87

/-- the number that a text in base `b` stands for -/
def numberOf (b : Nat) (t : Text) : Nat := t.foldl (fun a c => b * a + digitOf c) 0

theorem numberOf_digits (b n : Nat) (hb : b + 2 ≤ 16) : numberOf (b + 2) (digits b n) = n := by
  have hd : ∀ d, d < 16 → digitOf (digit d) = d := by decide
  unfold numberOf
  induction n using Nat.strongRecOn with
  | _ n ih =>
    unfold digits
    by_cases h : n < b + 2
    · rw [dif_pos h]
      simp only [List.foldl_cons, List.foldl_nil, Nat.mul_zero, Nat.zero_add]
      exact hd n (by omega)
    · rw [dif_neg h, List.foldl_append, ih _ (Nat.div_lt_self (by omega) (by omega))]
      simp only [List.foldl_cons, List.foldl_nil]
      rw [hd _ (Nat.lt_of_lt_of_le (Nat.mod_lt n (by omega)) hb)]
      exact Nat.div_add_mod n (b + 2)

/-- A number without a string is shown in the base of its format: with 0x in base 16, with 0 in base 8, or else in base 10; except for
2^64 - 1.  With a string, the string is shown. -/
theorem C226_text_partial (f : Field) (hn : f.num = true) : (f.str ≠ [] → f.text = f.str) ∧
    (f.str = [] → f.val < 2 ^ 64 - 1 → (f.fmt = 2 → ∃ t, f.text = [48, 120] ++ t ∧ numberOf 16 t = f.val) ∧
      (f.fmt = 1 → ∃ t, f.text = [48] ++ t ∧ numberOf 8 t = f.val) ∧ (f.fmt ≠ 1 → f.fmt ≠ 2 → numberOf 10 f.text = f.val)) := by
  refine ⟨fun h => by simp [Field.text, hn, h], fun h hv => ?_⟩
  have hW : W = 2 ^ 64 := by decide
  have e : f.text = showNum f.fmt f.val := by simp [Field.text, hn, h]
  rw [e]
  unfold showNum
  rw [if_neg (by rw [hW]; omega)]
  refine ⟨fun h2 => ?_, fun h1 => ?_, fun h1 h2 => ?_⟩
  · rw [if_pos h2]
    exact ⟨_, rfl, numberOf_digits 14 _ (by omega)⟩
  · rw [if_neg (by omega), if_pos h1]
    exact ⟨_, rfl, numberOf_digits 6 _ (by omega)⟩
  · rw [if_neg h2, if_neg h1]
    exact numberOf_digits 8 _ (by omega)

example : (uid 300).num = true ∧ (uid 300).str = [] ∧ (uid 300).val < 2 ^ 64 - 1 ∧ (uid 300).text = [48, 120, 49, 50, 99] := by decide +kernel

/-- one pair record with two fields, a value of 8 bytes with a string, and an "ok" -/
def one (v : Nat) (t : Text) : Rec := .pair (hd 0 3 1 3 4) 7 [{ name := [118], size := 8, val := v, num := true, str := t, fmt := 0 }, stt 1]

/-- Violated: the largest value has no text. -/
theorem C226_max_violated : ∃ R, Reader.new (database 10 [.index, .record (one (2 ^ 64 - 1) [])]) = .ok R ∧
    R.window 0 9 = .ok [.pair (hd 0 3 1 3 4) [pairid, [118], [115, 116]] [2, 8, 1] [0, 0, 0] [(7, false), (2 ^ 64 - 1, true), (1, false)] [[55], [], [111, 107]]] := by
  exact opened _ (by decide +kernel)

/-- Violated: a string for a value is cut at a colon: "a:b" is shown as "a". -/
theorem C226_colon_violated : ∃ R, Reader.new (database 10 [.index, .record (one 5 [97, 58, 98])]) = .ok R ∧
    R.window 0 9 = .ok [.pair (hd 0 3 1 3 4) [pairid, [118], [115, 116]] [2, 8, 1] [0, 0, 0] [(7, false), (5, false), (1, false)] [[55], [97], [111, 107]]] := by
  exact opened _ (by decide +kernel)

/-- Violated: the first string for a value is shown for all transactions, also for those that had no string for it. -/
theorem C226_first_string_violated : ∃ R, Reader.new (database 10 [.index, .record (one 5 []), .record (one 5 [97]), .record (one 5 [98])]) = .ok R ∧
    R.window 0 9 = .ok (List.replicate 3 (one 5 [97]).shown) := by
  exact opened _ (by decide +kernel)

/-- Violated: a name with a colon makes a line that is read as something else; the database cannot be opened. -/
theorem C226_name_violated :
    Reader.new (database 10 [.index, .record (.pair (hd 0 3 1 3 4) 7 [{ name := [97, 58, 98], size := 8, val := 5, num := true, str := [], fmt := 0 }, stt 1])]) =
      .error .parse := by decide +kernel

/-- Violated: a value that does not fit its size is cut; its string is not found. -/
theorem C226_size_violated : ∃ R, Reader.new (database 10 [.index, .record (.pair (hd 0 3 1 3 4) 7
      [{ name := [118], size := 1, val := 257, num := true, str := [98], fmt := 0 }, stt 1])]) = .ok R ∧
    R.window 0 9 = .ok [.pair (hd 0 3 1 3 4) [pairid, [118], [115, 116]] [2, 1, 1] [0, 0, 0] [(7, false), (1, true), (1, false)] [[55], [49], [111, 107]]] := by
  exact opened _ (by decide +kernel)

/-! ### C227: a database that grows -/

/-- the files while the database is written -/
def growing (H : Nat) (ops : List Op) : Files := ((Out.new H fresh).run ops).files

/-- If both files have other sizes than before, and the new size of the records, rounded down, too, the reader says that there is an
update, until that is acknowledged.  If transactions were written after the last index, and the reader knows their locations, kinds and
strings, the windows before the last but one index are right.  Missing: the other windows. -/
theorem C227_update_partial (S : Schema) (H : Nat) (hH : 0 < H) (ops : List Op) (ok : ∀ r ∈ recsOf ops, r.ok S)
    (hsize : size (recsOf ops) < 2 ^ 64) (R : Reader) (hb : R.H = H) (hready : ∀ r ∈ recsOf ops, Ready R r)
    (h1 : (growing H ops).idx.length ≠ R.isize) (h2 : (growing H ops).recs.length ≠ R.rsize)
    (h3 : (growing H ops).recs.length - (growing H ops).recs.length % H ≠ R.rsize)
    (hnew : ∃ n, (marks 0 ops).length = n + 1 ∧ (before n ops).length < (recsOf ops).length) :
    (R.isUpdated (growing H ops)).2 = true ∧ (R.isUpdated (growing H ops)).1.updated = true ∧
      ((R.isUpdated (growing H ops)).1.ack.isUpdated (growing H ops)).2 = false ∧
      ∀ s e, s / H + 1 < (marks 0 ops).length → (e + H - 1) / H + 1 < (marks 0 ops).length → s / H * 8 + 36 < 2 ^ 63 → e + H ≤ 2 ^ 64 →
        (e + H - 1) / H * 8 + 36 < 2 ^ 63 → (R.isUpdated (growing H ops)).1.window s e =
          .ok ((((before ((e + H - 1) / H) ops).drop (before (s / H) ops).length).filter (fun r => !r.outside s e)).map Rec.shown) := by
  have hrecs : (growing H ops).recs = (recsOf ops).flatMap Rec.bytes := by
    have := run_recs (Out.new H fresh) ops
    rw [show (Out.new H fresh).files.recs = [] from rfl, List.nil_append] at this
    exact this
  have hidx : (growing H ops).idx = header ++ le 8 H ++ (marks 0 ops).flatMap (le 8) := run_idx (Out.new H fresh) ops
  obtain ⟨n, hn, hlt⟩ := hnew
  have hilen : (growing H ops).idx.length = 36 + n * 8 + 8 := by
    rw [hidx]
    simp only [List.length_append, length_le, marks_length, hn, show header.length = 28 from rfl]
    omega
  have hmk := marks_get 0 n ops
  rw [if_pos (by omega), Nat.zero_add] at hmk
  obtain ⟨t, ht⟩ := before_recsOf n ops
  have hsz : size (recsOf ops) = size (before n ops) + size t := by
    conv => lhs; rw [ht]
    rw [size_append]
  have hbig : (growing H ops).recs.length = size (recsOf ops) := by rw [hrecs, flatMap_length]
  have htne : 48 ≤ size t := by
    cases t with
    | nil =>
      rw [List.append_nil] at ht
      rw [ht] at hlt
      exact absurd hlt (Nat.lt_irrefl _)
    | cons r t =>
      have := bytes_pos r
      have e : size (r :: t) = r.bytes.length + size t := by simp [size]
      omega
  have hpos : word (growing H ops).idx ((growing H ops).idx.length - 8) 8 = size (before n ops) := by
    rw [hilen, show 36 + n * 8 + 8 - 8 = 36 + n * 8 by omega, hidx, word_skip (header ++ le 8 H) _ 36 _ 8 (by simp [length_le, header])]
    have := word_marks _ _ _ [] hmk (by rw [show (256 : Nat) ^ 8 = 2 ^ 64 from rfl]; omega)
    rwa [List.append_nil] at this
  generalize hf : growing H ops = f at *
  have hup : R.isUpdated f = ({ R with files := f, isize := f.idx.length, rsize := f.recs.length - f.recs.length % H, bad := false, hi := (word f.recs (size (before n ops) + 8) 8 + W - 1) % W, updated := true }, true) := by
    unfold Reader.isUpdated
    dsimp only
    rw [if_pos ⟨h1, h2⟩, hb, if_neg h3]
    unfold Reader.findLast
    dsimp only
    rw [hpos, if_neg (by rw [hbig]; simp; omega)]
  rw [hup]
  refine ⟨rfl, rfl, ?_, ?_⟩
  · unfold Reader.ack Reader.isUpdated
    dsimp only
    rw [if_neg (by simp)]
  · intro s e hs1 he1 hs he he'
    have hd : (e + H - 1) / H * H / H = (e + H - 1) / H := Nat.mul_div_cancel _ hH
    refine window_core (S := S) (R := { R with files := f, isize := f.idx.length, rsize := f.recs.length - f.recs.length % H, bad := false, hi := (word f.recs (size (before n ops) + 8) 8 + W - 1) % W, updated := true }) hrecs rfl ok ?_ s e _ _ (findPos_live (R := { R with files := f, isize := f.idx.length, rsize := f.recs.length - f.recs.length % H, bad := false, hi := (word f.recs (size (before n ops) + 8) 8 + W - 1) % W, updated := true }) hb hidx rfl hsize s hs hs1) ?_
    · intro r hr
      have := hready r hr
      cases r with
      | pair h pid fs => exact this
      | _ => trivial
    · show Reader.findPos _ (roundUp R.H e) = _
      rw [show roundUp R.H e = (e + H - 1) / H * H by rw [hb]; exact roundUp_eq H e hH he, findPos_live (R := { R with files := f, isize := f.idx.length, rsize := f.recs.length - f.recs.length % H, bad := false, hi := (word f.recs (size (before n ops) + 8) 8 + W - 1) % W, updated := true }) hb hidx rfl hsize _ (by rw [hd]; exact he') (by rw [hd]; exact he1), hd]

/-- a reader of a database that is still written -/
def early : List Op := [.index, .record (pr 0 3 1 300 1 [97])]

/-- the database has grown -/
def later : List Op := early ++ [.index, .record (pr 10 12 2 300 1 [97]), .index, .record (pr 20 23 3 300 1 [97])]

example : ∃ R, Reader.new (growing 10 early) = .ok R ∧ R.H = 10 ∧ (∀ r ∈ recsOf later, Ready R r) ∧ (growing 10 later).idx.length ≠ R.isize ∧
    (growing 10 later).recs.length ≠ R.rsize ∧ (growing 10 later).recs.length - (growing 10 later).recs.length % 10 ≠ R.rsize ∧
    (R.isUpdated (growing 10 later)).1.window 0 9 = .ok [(pr 0 3 1 300 1 [97]).shown] := by
  refine ⟨(Reader.new (growing 10 early)).toOption.get (by decide +kernel), by decide +kernel, by decide +kernel, ?_, by decide +kernel, by decide +kernel,
    by decide +kernel, by decide +kernel⟩
  intro r hr
  have : ∃ a b i, r = pr a b i 300 1 [97] := by
    simp only [later, early, recsOf, List.cons_append, List.nil_append, List.mem_cons, List.not_mem_nil, or_false] at hr
    rcases hr with e | e | e <;> exact ⟨_, _, _, e⟩
  obtain ⟨a, b, i, rfl⟩ := this
  refine ⟨?_, ⟨[uid 300, stt 1, mn [97]], rfl, ?_⟩, ?_⟩
  · show List.lookup 3 _ = some 7
    decide +kernel
  · decide +kernel
  · intro j f hj hn
    match j, hj with
    | 0, hj => simp at hj; subst hj; decide +kernel
    | 1, hj => simp at hj; subst hj; decide +kernel
    | 2, hj => simp at hj; subst hj; cases hn
    | j + 3, hj => simp at hj

example : (∀ r ∈ recsOf later, r.ok demoSchema) ∧ ∃ n, (marks 0 later).length = n + 1 ∧ (before n later).length < (recsOf later).length := by
  refine ⟨?_, 2, rfl, by decide⟩
  intro r hr
  simp only [later, early, recsOf, List.cons_append, List.nil_append, List.mem_cons, List.not_mem_nil, or_false] at hr
  rcases hr with e | e | e <;> rw [e] <;>
    exact pr_ok _ _ _ _ _ _ (by decide) (by decide) (by decide) (by decide) (by decide) (by decide)

/-- Violated: the size of the record file is rounded down to a multiple of the number of ticks of an interval.  With an interval that
is larger than the file nothing is read after the update, though a reader that is opened now reads all. -/
theorem C227_size_violated : (∃ R, Reader.new (growing 1000 early) = .ok R ∧ (R.isUpdated (growing 1000 (early ++ [.index, .record (pr 1000 1003 2 300 1 [97])]))).2 = true ∧
      (R.isUpdated (growing 1000 (early ++ [.index, .record (pr 1000 1003 2 300 1 [97])]))).1.window 0 2000 = .ok []) ∧
    ∃ R', Reader.new (growing 1000 (early ++ [.index, .record (pr 1000 1003 2 300 1 [97])])) = .ok R' ∧
      R'.window 0 2000 = .ok [(pr 0 3 1 300 1 [97]).shown, (pr 1000 1003 2 300 1 [97]).shown] := by
  exact ⟨opened _ (by decide +kernel), opened _ (by decide +kernel)⟩

/-- Violated: the locations, kinds and strings are not read again: a transaction of a new location makes the window throw. -/
theorem C227_new_location_violated : ∃ R, Reader.new (growing 2 early) = .ok R ∧
    (R.isUpdated (growing 2 (early ++ [.index, .record (.pair (hd 2 3 2 4 4) 7 [uid 3, stt 1, mn []]), .index, .record (note 4 5 3 [])]))).2 = true ∧
    (R.isUpdated (growing 2 (early ++ [.index, .record (.pair (hd 2 3 2 4 4) 7 [uid 3, stt 1, mn []]), .index, .record (note 4 5 3 [])]))).1.window 2 4 = .error .at := by
  exact opened _ (by decide +kernel)

/-- Violated: if nothing was written after the last index, the record file is read beyond its end, and from then on all windows are
empty. -/
theorem C227_no_transaction_violated : (∃ R, Reader.new (growing 10 (early ++ [.index])) = .ok R ∧ R.window 0 9 = .ok [] ∧ R.window 0 30 = .ok []) ∧
    ∃ R', Reader.new (database 10 (early ++ [.index])) = .ok R' ∧ R'.window 0 9 = .ok [(pr 0 3 1 300 1 [97]).shown] := by
  exact ⟨opened _ (by decide +kernel), opened _ (by decide +kernel)⟩

end Sparta.Argos
