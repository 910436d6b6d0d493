import Verif.Argos.Read
/-! Opening a database and reading a window. -/
namespace Sparta.Argos

structure Reads (S : Schema) (H : Nat) (ops : List Op) (R : Reader) : Prop where
  beat : R.H = H
  recs : R.files.recs = (recsOf ops).flatMap Rec.bytes
  idx : ∃ x, R.files.idx = header ++ le 8 H ++ ((marks 0 ops).flatMap (le 8) ++ le 8 x)
  isize : R.isize = R.files.idx.length
  rsize : R.rsize = R.files.recs.length
  bad : R.bad = false
  ok : ∀ r ∈ recsOf ops, r.ok S
  ready : ∀ r ∈ recsOf ops, Ready R r

theorem marks_length (l : List Nat) : (l.flatMap (le 8)).length = l.length * 8 := by
  induction l with
  | nil => rfl
  | cons x l ih => rw [List.flatMap_cons, List.length_append, ih, length_le, List.length_cons]; omega

theorem word_marks (l : List Nat) (k v : Nat) (x : List Nat) (h : l[k]? = some v) (hv : v < 256 ^ 8) : word (l.flatMap (le 8) ++ x) (k * 8) 8 = v := by
  induction l generalizing k with
  | nil => simp at h
  | cons a l ih =>
    rw [List.flatMap_cons, List.append_assoc]
    cases k with
    | zero =>
      simp only [List.getElem?_cons_zero, Option.some.injEq] at h
      rw [h, Nat.zero_mul, word_le 8 _ _ hv]
    | succ k =>
      rw [List.getElem?_cons_succ] at h
      rw [show (k + 1) * 8 = 8 + k * 8 by omega, word_skip _ _ 8 _ 8 (length_le _ _), ih k h]

theorem before_recsOf (k : Nat) (ops : List Op) : ∃ t, recsOf ops = before k ops ++ t := by
  induction ops generalizing k with
  | nil => exact ⟨[], by simp [recsOf, before]⟩
  | cons op ops ih =>
    cases op with
    | record r =>
      obtain ⟨t, h⟩ := ih k
      exact ⟨t, by cases k <;> simp [recsOf, before, h]⟩
    | index =>
      cases k with
      | zero => exact ⟨recsOf ops, by simp [recsOf, before]⟩
      | succ k =>
        obtain ⟨t, h⟩ := ih k
        exact ⟨t, by simp [recsOf, before, h]⟩

theorem before_before (k d : Nat) (ops : List Op) : ∃ t, before (k + d) ops = before k ops ++ t := by
  induction ops generalizing k with
  | nil => exact ⟨[], by simp [before]⟩
  | cons op ops ih =>
    cases op with
    | record r =>
      obtain ⟨t, h⟩ := ih k
      refine ⟨t, ?_⟩
      have e : ∀ k, before k (.record r :: ops) = r :: before k ops := by intro k; cases k <;> rfl
      rw [e, e, h]
      rfl
    | index =>
      cases k with
      | zero => exact ⟨before (0 + d) (.index :: ops), by simp [before]⟩
      | succ k =>
        obtain ⟨t, h⟩ := ih k
        refine ⟨t, ?_⟩
        rw [show k + 1 + d = (k + d) + 1 by omega]
        simpa [before] using h

theorem size_append (a b : List Rec) : size (a ++ b) = size a + size b := by simp [size]

theorem length_size (rs : List Rec) : rs.length ≤ size rs := by
  induction rs with
  | nil => simp
  | cons r rs ih =>
    have := bytes_pos r
    have e : size (r :: rs) = r.bytes.length + size rs := by simp [size]
    rw [e, List.length_cons]
    omega

theorem findPos_eq {S : Schema} {H : Nat} {ops : List Op} {R : Reader} (I : Reads S H ops R) (hsize : size (recsOf ops) < 2 ^ 64) (t : Nat)
    (ht : t / H * 8 + 36 < 2 ^ 63) : R.findPos t = .ok (size (before (t / H) ops)) := by
  obtain ⟨x, hx⟩ := I.idx
  have hlen : R.isize = 36 + (marks 0 ops).length * 8 + 8 := by
    rw [I.isize, hx]
    simp only [List.length_append, length_le, marks_length, show header.length = 28 from rfl]
    omega
  unfold Reader.findPos
  rw [I.beat, Nat.mod_eq_of_lt (by unfold W; omega)]
  dsimp only
  rw [if_neg (by unfold W; omega), hlen]
  by_cases hk : (marks 0 ops).length ≤ t / H
  · rw [if_pos (by omega), I.rsize, I.recs, flatMap_length, before_all 0 _ _ hk]
  · rw [if_neg (by omega)]
    have hm := marks_get 0 (t / H) ops
    rw [if_pos (by omega), Nat.zero_add] at hm
    obtain ⟨r, hr⟩ := before_recsOf (t / H) ops
    have hs : size (before (t / H) ops) < 256 ^ 8 := by
      have := size_append (before (t / H) ops) r
      rw [← hr] at this
      rw [show (256 : Nat) ^ 8 = 2 ^ 64 from rfl]
      omega
    rw [hx, word_skip (header ++ le 8 H) _ 36 _ 8 (by simp [length_le, header]), word_marks _ _ _ _ hm hs]

theorem roundUp_eq (H e : Nat) (hH : 0 < H) (he : e + H ≤ 2 ^ 64) : roundUp H e = (e + H - 1) / H * H := by
  have h1 : (e + H + W - 1) % W = e + H - 1 := by
    rw [show e + H + W - 1 = (e + H - 1) + W by omega, Nat.add_mod_right, Nat.mod_eq_of_lt (by unfold W; omega)]
  unfold roundUp
  rw [h1]
  dsimp only
  have := Nat.div_add_mod (e + H - 1) H
  rw [Nat.mul_comm] at this
  omega

theorem window_core {S : Schema} {ops : List Op} {R : Reader} (hrecs : R.files.recs = (recsOf ops).flatMap Rec.bytes) (hbad : R.bad = false)
    (hok : ∀ r ∈ recsOf ops, r.ok S) (hready : ∀ r ∈ recsOf ops, Ready R r) (s e k K : Nat) (h1 : R.findPos s = .ok (size (before k ops)))
    (h2 : R.findPos (roundUp R.H e) = .ok (size (before K ops))) :
    R.window s e = .ok (shownIn s e ((before K ops).drop (before k ops).length)) := by
  unfold Reader.window
  rw [h1, h2]
  dsimp only
  rw [hbad]
  simp only [Bool.false_eq_true, if_false]
  have hdrop : ∀ a t, recsOf ops = a ++ t → R.files.recs.drop (size a) = t.flatMap Rec.bytes := by
    intro a t h
    rw [hrecs, h, List.flatMap_append, drop_skip _ _ _ (flatMap_length a)]
  have hlen : R.files.recs.length = size (recsOf ops) := by rw [hrecs, flatMap_length]
  by_cases hk : k ≤ K
  · obtain ⟨m, hm⟩ := before_before k (K - k) ops
    rw [show k + (K - k) = K by omega] at hm
    obtain ⟨t, ht⟩ := before_recsOf K ops
    have hall : recsOf ops = before k ops ++ (m ++ t) := by rw [ht, hm, List.append_assoc]
    rw [hdrop _ _ hall, hm, List.drop_left, List.flatMap_append]
    have e1 : size (recsOf ops) = size (before k ops) + (size m + size t) := by rw [hall, size_append, size_append]
    apply records_read S R s e
    · intro r hr; exact hok r (by rw [hall]; simp [hr])
    · intro r hr; exact hready r (by rw [hall]; simp [hr])
    · rw [flatMap_length, size_append, hlen, e1]; omega
    · rw [flatMap_length, hlen, e1]; omega
    · have := length_size m
      rw [hlen, e1]; omega
  · obtain ⟨m, hm⟩ := before_before K (k - K) ops
    rw [show K + (k - K) = k by omega] at hm
    obtain ⟨t, ht⟩ := before_recsOf k ops
    have e1 : size (recsOf ops) = size (before k ops) + size t := by
      conv => lhs; rw [ht]
      rw [size_append]
    have e2 : size (before k ops) = size (before K ops) + size m := by rw [hm, size_append]
    rw [hdrop _ _ ht, records_none _ _ _ _ _ _ (by rw [hlen, flatMap_length]; omega), List.drop_of_length_le (by rw [hm]; simp)]
    rfl

theorem window_eq {S : Schema} {H : Nat} {ops : List Op} {R : Reader} (I : Reads S H ops R) (hH : 0 < H) (hsize : size (recsOf ops) < 2 ^ 64) (s e : Nat)
    (hs : s / H * 8 + 36 < 2 ^ 63) (he : e + H ≤ 2 ^ 64) (he' : (e + H - 1) / H * 8 + 36 < 2 ^ 63) :
    R.window s e = .ok (shownIn s e ((before ((e + H - 1) / H) ops).drop (before (s / H) ops).length)) := by
  have hd : (e + H - 1) / H * H / H = (e + H - 1) / H := Nat.mul_div_cancel _ hH
  refine window_core I.recs I.bad I.ok I.ready s e _ _ (findPos_eq I hsize s hs) ?_
  rw [I.beat, roundUp_eq H e hH he, findPos_eq I hsize _ (by rw [hd]; exact he'), hd]

/-- a reader of a file that is still written: the last index is not used -/
theorem findPos_live {H : Nat} {ops : List Op} {R : Reader} (hb : R.H = H)
    (hidx : R.files.idx = header ++ le 8 H ++ (marks 0 ops).flatMap (le 8)) (hi : R.isize = R.files.idx.length) (hsize : size (recsOf ops) < 2 ^ 64) (t : Nat)
    (ht : t / H * 8 + 36 < 2 ^ 63) (hm : t / H + 1 < (marks 0 ops).length) : R.findPos t = .ok (size (before (t / H) ops)) := by
  have hlen : R.isize = 36 + (marks 0 ops).length * 8 := by
    rw [hi, hidx]
    simp only [List.length_append, length_le, marks_length, show header.length = 28 from rfl]
  unfold Reader.findPos
  rw [hb, Nat.mod_eq_of_lt (by unfold W; omega)]
  dsimp only
  rw [if_neg (by unfold W; omega), hlen, if_neg (by omega)]
  have hm' := marks_get 0 (t / H) ops
  rw [if_pos (by omega), Nat.zero_add] at hm'
  obtain ⟨r, hr⟩ := before_recsOf (t / H) ops
  have hs : size (before (t / H) ops) < 256 ^ 8 := by
    have := size_append (before (t / H) ops) r
    rw [← hr] at this
    rw [show (256 : Nat) ^ 8 = 2 ^ 64 from rfl]
    omega
  have := word_marks _ _ _ [] hm' hs
  rw [List.append_nil] at this
  rw [hidx, word_skip (header ++ le 8 H) _ 36 _ 8 (by simp [length_le, header]), this]

theorem before_timed (H : Nat) (n K : Nat) (ops : List Op) (h : Timed H n ops) :
    before K ops = (recsOf ops).filter (fun r => decide (r.hdr.stop ≤ (n + K) * H)) := by
  induction ops generalizing n K with
  | nil => simp [before, recsOf]
  | cons op ops ih =>
    cases op with
    | record r =>
      obtain ⟨_, _, _, h4, h5⟩ := h
      have e : before K (.record r :: ops) = r :: before K ops := by cases K <;> rfl
      have : r.hdr.stop ≤ (n + K) * H := Nat.le_trans h4 (Nat.mul_le_mul_right _ (by omega))
      rw [e, recsOf, List.filter_cons_of_pos (by simpa using this), ih n K h5]
    | index =>
      cases K with
      | zero =>
        simp only [before, recsOf, Nat.add_zero]
        symm
        rw [List.filter_eq_nil_iff]
        have : ∀ (m : Nat) (ops : List Op), Timed H m ops → n + 1 ≤ m → ∀ r ∈ recsOf ops, ¬ r.hdr.stop ≤ n * H := by
          intro m ops
          induction ops generalizing m with
          | nil => intro _ _ r hr; cases hr
          | cons op ops ih2 =>
            intro ht hm r hr
            cases op with
            | index => exact ih2 (m + 1) ht (by omega) r hr
            | record r' =>
              obtain ⟨_, t2, t3, _, t5⟩ := ht
              simp only [recsOf, List.mem_cons] at hr
              rcases hr with e | hr
              · subst e
                have : n * H ≤ (m - 1) * H := Nat.mul_le_mul_right _ (by omega)
                omega
              · exact ih2 m t5 hm r hr
        intro r hr
        simpa using this (n + 1) ops h (Nat.le_refl _) r hr
      | succ K =>
        simp only [before, recsOf]
        rw [ih (n + 1) K h, show n + 1 + K = n + (K + 1) by omega]

theorem between_timed (H : Nat) (k K : Nat) (ops : List Op) (h : Timed H 0 ops) :
    (before K ops).drop (before k ops).length =
      (recsOf ops).filter (fun r => decide (k * H < r.hdr.stop) && decide (r.hdr.stop ≤ K * H)) := by
  have hb : ∀ j, before j ops = (recsOf ops).filter (fun r => decide (r.hdr.stop ≤ j * H)) := by
    intro j
    rw [before_timed H 0 j ops h, Nat.zero_add]
  by_cases hk : k ≤ K
  · obtain ⟨m, hm⟩ := before_before k (K - k) ops
    rw [show k + (K - k) = K by omega] at hm
    obtain ⟨t, ht⟩ := before_recsOf k ops
    rw [hm, List.drop_left]
    have hle : k * H ≤ K * H := Nat.mul_le_mul_right _ hk
    -- what comes after `before k` ends later
    have h1 : before k ops = (before k ops).filter (fun r => decide (r.hdr.stop ≤ k * H)) := by
      conv => rhs; rw [hb k, List.filter_filter]
      rw [hb k]; congr 1; funext r; simp
    have h2 : t.filter (fun r => decide (r.hdr.stop ≤ k * H)) = [] := by
      have := hb k
      rw [ht, List.filter_append, ← h1] at this
      exact List.append_right_eq_self.mp this.symm
    have h3 : m = (recsOf ops).filter (fun r => decide (k * H < r.hdr.stop) && decide (r.hdr.stop ≤ K * H)) := by
      have e1 := hb K
      rw [hm, ht, List.filter_append] at e1
      have e2 : (before k ops).filter (fun r => decide (r.hdr.stop ≤ K * H)) = before k ops := by
        rw [List.filter_eq_self]
        intro r hr
        rw [hb k, List.mem_filter] at hr
        have := hr.2
        simp only [decide_eq_true_eq] at this ⊢
        omega
      rw [e2] at e1
      have e3 := List.append_cancel_left e1
      rw [ht, List.filter_append]
      have e4 : (before k ops).filter (fun r => decide (k * H < r.hdr.stop) && decide (r.hdr.stop ≤ K * H)) = [] := by
        rw [List.filter_eq_nil_iff]
        intro r hr
        rw [hb k, List.mem_filter] at hr
        have := hr.2
        simp only [decide_eq_true_eq] at this
        simp only [Bool.and_eq_true, decide_eq_true_eq]
        omega
      rw [e4, List.nil_append, e3]
      apply List.filter_congr
      intro r hr
      have := List.filter_eq_nil_iff.mp h2 r hr
      simp only [decide_eq_true_eq] at this
      simp only [show k * H < r.hdr.stop by omega, decide_true, Bool.true_and]
    exact h3
  · obtain ⟨m, hm⟩ := before_before K (k - K) ops
    rw [show K + (k - K) = k by omega] at hm
    rw [List.drop_of_length_le (by rw [hm]; simp)]
    symm
    rw [List.filter_eq_nil_iff]
    intro r _
    have : K * H ≤ k * H := Nat.mul_le_mul_right _ (by omega)
    simp only [Bool.and_eq_true, decide_eq_true_eq]
    omega

theorem timed_mem (H : Nat) (n : Nat) (ops : List Op) (h : Timed H n ops) (r : Rec) (hr : r ∈ recsOf ops) :
    ∃ m, m * H ≤ r.hdr.start ∧ r.hdr.start < r.hdr.stop ∧ r.hdr.stop ≤ (m + 1) * H := by
  induction ops generalizing n with
  | nil => cases hr
  | cons op ops ih =>
    cases op with
    | index => exact ih (n + 1) h hr
    | record r' =>
      obtain ⟨t1, t2, t3, t4, t5⟩ := h
      simp only [recsOf, List.mem_cons] at hr
      rcases hr with e | hr
      · subst e
        exact ⟨n - 1, t2, t3, by rw [show n - 1 + 1 = n by omega]; exact t4⟩
      · exact ih n t5 hr

/-- the writer of a new process -/
def fresh : Statics := { locs := [], pids := [], keys := [] }

/-- the files of a database, closed -/
def database (H : Nat) (ops : List Op) : Files := ((Out.new H fresh).run ops).close

theorem fieldsOk_label {S : Schema} {pid i : Nat} {fs : List Field} (h : fieldsOk S pid i fs) (j : Nat) (f : Field) (hj : fs[j]? = some f) :
    f.ok S pid (i + j) := by
  induction fs generalizing i j with
  | nil => simp at hj
  | cons g fs ih =>
    cases j with
    | zero =>
      simp only [List.getElem?_cons_zero, Option.some.injEq] at hj
      rw [← hj]
      exact h.1
    | succ j =>
      rw [List.getElem?_cons_succ] at hj
      have := ih h.2 j hj
      rwa [show i + 1 + j = i + (j + 1) by omega] at this

theorem Wrote.ready {S : Schema} {o : Out} {L : Log} (w : Wrote S o L) (R : Reader) (r : Rec) (ok : r.ok S) (hk : Known o.st r) (h1 : R.locs = L.maps)
    (h2 : R.descs = L.kinds.map (fun p => (p.1, desc p.2 (p.2.map (fun f => f.fmt))))) (h3 : R.labels = L.strs) : Ready R r := by
  cases r with
  | pair h pid fs =>
    obtain ⟨_, o1, o2, o3⟩ := ok
    obtain ⟨k1, k2, k3⟩ := hk
    refine ⟨?_, ?_, ?_⟩
    · rw [w.locs] at k1
      obtain ⟨p, hp, e⟩ := List.mem_map.mp k1
      rw [h1]
      apply lookup_mem _ _ _ w.nd1
      have := w.kind p hp
      rw [e, ← o1] at this
      rw [← e, ← this]
      exact hp
    · rw [w.pids] at k2
      obtain ⟨p, hp, e⟩ := List.mem_map.mp k2
      refine ⟨p.2, ?_, ?_⟩
      · rw [(w.shape p hp).1, e, o2]
      · rw [h2]
        apply lookup_mem
        · rw [List.map_map]
          exact w.nd2
        · exact List.mem_map.mpr ⟨p, hp, by rw [e]⟩
    · intro j f hj hn
      have hl := fieldsOk_label o3 j f hj
      rw [Nat.zero_add] at hl
      have hl := (hl.2.1 hn).2.2.1
      rw [h3]
      by_cases hs : f.str = []
      · rw [if_pos hs]
        apply lookup_none
        intro hm
        obtain ⟨p, hp, e⟩ := List.mem_map.mp hm
        have := w.label p hp
        rw [e] at this
        apply this.2.1
        rw [this.1, ← hl, hs]
      · rw [if_neg hs]
        have := k3 j f hj hn hs
        rw [w.keys] at this
        obtain ⟨p, hp, e⟩ := List.mem_map.mp this
        apply lookup_mem _ _ _ w.nd3
        have := (w.label p hp).1
        rw [e, ← hl] at this
        rw [← e, ← this]
        exact hp
  | _ => trivial

theorem Wrote.fresh (S : Schema) (H : Nat) : Wrote S (Out.new H fresh) { maps := [], kinds := [], strs := [] } := by
  refine ⟨rfl, rfl, rfl, rfl, rfl, rfl, rfl, List.nodup_nil, List.nodup_nil, List.nodup_nil, ?_, ?_, ?_⟩ <;> (intro p hp; cases hp)

theorem word_hdr (h : Hdr) (t : Nat) (ok : h.ok t) (b : List Nat) : word (h.bytes ++ b) 0 8 = h.start ∧ word (h.bytes ++ b) 8 8 = h.stop := by
  have := readHdr_bytes h t ok b
  unfold readHdr at this
  rw [if_neg (by rw [List.length_append, Hdr.bytes_length]; omega)] at this
  injection this with this
  refine ⟨?_, ?_⟩
  · conv => rhs; rw [← this]
  · conv => rhs; rw [← this]

theorem Rec.split (S : Schema) (r : Rec) (ok : r.ok S) : ∃ t x, r.hdr.ok t ∧ r.bytes = r.hdr.bytes ++ x := by
  cases r with
  | annot h t => exact ⟨1, le 2 t.length ++ t.take (t.length % 65536), ok.1, by simp [Rec.bytes, Rec.hdr]⟩
  | inst h op va ra => exact ⟨2, le 4 op ++ (le 4 0 ++ (le 8 va ++ le 8 ra)), ok.1, by simp [Rec.bytes, Rec.hdr]⟩
  | mem h va ra => exact ⟨3, le 8 va ++ le 8 ra, ok.1, by simp [Rec.bytes, Rec.hdr]⟩
  | pair h pid fs => exact ⟨4, fs.flatMap Field.bytes, ok.1, by simp [Rec.bytes, Rec.hdr]⟩

theorem flatMap_ne {β : Type} (xs : List β) (g : β → Text) (h : xs ≠ []) : xs.flatMap (fun x => g x ++ [10]) ≠ [] := by
  cases xs with
  | nil => exact absurd rfl h
  | cons x xs => simp

theorem open_ok (S : Schema) (H : Nat) (hH : 0 < H) (hH' : H < 2 ^ 64) (ops : List Op) (ok : ∀ r ∈ recsOf ops, r.ok S)
    (hl : ∃ r ∈ recsOf ops, r.labelled = true) (hsize : size (recsOf ops) < 2 ^ 64) :
    ∃ R, Reader.new (database H ops) = .ok R ∧ Reads S H ops R ∧ R.updated = false ∧
      (∀ r, (recsOf ops).head? = some r → R.lo = r.hdr.start) ∧
      (∀ r, (recsOf ops).getLast? = some r → R.hi = (r.hdr.stop + (2 ^ 64 - 1)) % 2 ^ 64) := by
  obtain ⟨L, w, k, _⟩ := (Wrote.fresh S H).run ops ok
  obtain ⟨r0, hr0, hlab⟩ := hl
  have hne : recsOf ops ≠ [] := List.ne_nil_of_mem hr0
  have hrecs := run_recs (Out.new H fresh) ops
  rw [show (Out.new H fresh).files.recs = [] from rfl, List.nil_append] at hrecs
  have hidx := run_idx (Out.new H fresh) ops
  rw [show (Out.new H fresh).files.recs.length = 0 from rfl, show (Out.new H fresh).files.idx = header ++ le 8 H from rfl] at hidx
  have hlast := run_last (Out.new H fresh) ops
  rw [if_neg hne, show (Out.new H fresh).files.recs.length = 0 from rfl, Nat.zero_add] at hlast
  -- the files are not empty
  have hk0 := k r0 hr0
  have hfull : L.maps ≠ [] ∧ L.kinds ≠ [] ∧ L.strs ≠ [] := by
    cases r0 with
    | pair h pid fs =>
      obtain ⟨k1, k2, k3⟩ := hk0
      refine ⟨?_, ?_, ?_⟩
      · intro e; rw [w.locs, e] at k1; cases k1
      · intro e; rw [w.pids, e] at k2; cases k2
      · intro e
        simp only [Rec.labelled, List.any_eq_true, Bool.and_eq_true, Bool.not_eq_true'] at hlab
        obtain ⟨f, hf, hn, hs⟩ := hlab
        obtain ⟨j, hj⟩ := List.getElem?_of_mem hf
        have := k3 j f hj hn (by intro e; rw [e] at hs; simp at hs)
        rw [w.keys, e] at this
        cases this
    | _ => simp [Rec.labelled] at hlab
  generalize ho : (Out.new H fresh).run ops = o at *
  have hdb : database H ops = { o.files with idx := o.files.idx ++ le 8 o.last } := by unfold database; rw [ho]; rfl
  have hi : (database H ops).idx = header ++ le 8 H ++ ((marks 0 ops).flatMap (le 8) ++ le 8 o.last) := by
    rw [hdb]; simp [hidx]
  have hr : (database H ops).recs = (recsOf ops).flatMap Rec.bytes := by rw [hdb]; exact hrecs
  have hn1 : (database H ops).recs ≠ [] := by
    intro e
    have := congrArg List.length e
    rw [hr, flatMap_length] at this
    have h2 := length_size (recsOf ops)
    rw [this] at h2
    exact hne (List.length_eq_zero_iff.mp (by simpa using h2))
  have hn2 : (database H ops).idx ≠ [] := by rw [hi]; simp [header]
  have hn3 : (database H ops).map ≠ [] := by rw [hdb]; show o.files.map ≠ []; rw [w.map]; exact flatMap_ne _ _ hfull.1
  have hn4 : (database H ops).data ≠ [] := by rw [hdb]; show o.files.data ≠ []; rw [w.data]; exact flatMap_ne _ _ hfull.2.1
  have hn5 : (database H ops).disp ≠ [] := by rw [hdb]; show o.files.disp ≠ []; rw [w.disp]; exact flatMap_ne _ _ hfull.2.1
  have hn6 : (database H ops).strs ≠ [] := by rw [hdb]; show o.files.strs ≠ []; rw [w.strs]; exact flatMap_ne _ _ hfull.2.2
  have hh1 : (database H ops).idx.take 28 = header := by
    rw [hi, List.append_assoc, take_skip header _ 28 rfl]
  have hh2 : word (database H ops).idx 28 8 = H := by
    rw [hi, List.append_assoc, show (28 : Nat) = 28 + 0 from rfl, word_skip header _ 28 0 8 rfl, word_le 8 _ _ (by rw [show (256 : Nat) ^ 8 = 2 ^ 64 from rfl]; exact hH')]
  obtain ⟨r1, hr1⟩ : ∃ r, (recsOf ops).getLast? = some r := by
    cases h : (recsOf ops).getLast? with
    | none => exact absurd (List.getLast?_eq_none_iff.mp h) hne
    | some r => exact ⟨r, rfl⟩
  have hsplit : recsOf ops = (recsOf ops).dropLast ++ [r1] := by
    obtain ⟨ys, hy⟩ := List.getLast?_eq_some_iff.mp hr1
    rw [hy]; simp
  have hsz : size (recsOf ops) = size (recsOf ops).dropLast + r1.bytes.length := by
    conv => lhs; rw [hsplit]
    rw [size_append]; simp [size]
  have hbl := bytes_pos r1
  have hpos : word (database H ops).idx ((database H ops).idx.length - 8) 8 = o.last := by
    rw [hi, ← List.append_assoc, List.length_append, length_le, Nat.add_sub_cancel]
    have := word_skip (header ++ le 8 H ++ (marks 0 ops).flatMap (le 8)) (le 8 o.last) _ 0 8 rfl
    rw [Nat.add_zero] at this
    rw [this]
    have := word_le 8 o.last [] (by rw [show (256 : Nat) ^ 8 = 2 ^ 64 from rfl, hlast]; omega)
    rwa [List.append_nil] at this
  have hrl : (database H ops).recs.length = size (recsOf ops) := by rw [hr, flatMap_length]
  obtain ⟨t1, x1, ok1, b1⟩ := Rec.split S r1 (ok r1 (List.mem_of_getLast? hr1))
  have hstop : word (database H ops).recs (o.last + 8) 8 = r1.hdr.stop := by
    rw [hr, hsplit, List.flatMap_append, hlast, word_skip _ _ _ 8 8 (flatMap_length _)]
    simp only [List.flatMap_cons, List.flatMap_nil, List.append_nil]
    rw [b1]
    exact (word_hdr _ t1 ok1 x1).2
  refine ⟨{ files := database H ops, H := H, isize := (database H ops).idx.length, rsize := (database H ops).recs.length, lo := word (database H ops).recs 0 8, hi := (r1.hdr.stop + W - 1) % W, bad := decide ((database H ops).recs.length < 48), updated := false, locs := L.maps, descs := L.kinds.map (fun p => (p.1, desc p.2 (p.2.map (fun f => f.fmt)))), labels := L.strs }, ?_, ?_⟩
  · unfold Reader.new
    rw [if_neg (by simp [hn1, hn2, hn3, hn4, hn5, hn6]), if_neg (by simp [hh1]), hh2, if_neg (by omega),
      show (database H ops).map = o.files.map from by rw [hdb], w.maps_read]
    dsimp only
    rw [show (database H ops).data = o.files.data from by rw [hdb], w.data_read]
    dsimp only
    rw [show (database H ops).disp = o.files.disp from by rw [hdb], w.disp_read]
    dsimp only
    rw [show (database H ops).strs = o.files.strs from by rw [hdb], w.strs_read]
    dsimp only
    unfold Reader.findLast
    dsimp only
    rw [hpos, if_neg (by rw [hrl, hsz]; simp; omega), hstop]
  · refine ⟨⟨rfl, hr, ⟨o.last, hi⟩, rfl, rfl, ?_, ok, ?_⟩, rfl, ?_, ?_⟩
    · show decide _ = false
      rw [hrl, hsz]; simp; omega
    · intro r hm
      exact w.ready _ r (ok r hm) (k r hm) rfl rfl rfl
    · intro r hm
      obtain ⟨t, x, ok2, b2⟩ := Rec.split S r (ok r (List.mem_of_head? hm))
      show word (database H ops).recs 0 8 = _
      obtain ⟨ys, hy⟩ := List.head?_eq_some_iff.mp hm
      rw [hr, hy, List.flatMap_cons, b2, List.append_assoc]
      exact (word_hdr _ t ok2 _).1
    · intro r hm
      rw [hr1] at hm
      have hm := Option.some.inj hm
      have hW : W = 2 ^ 64 := by decide
      dsimp only
      rw [hm, hW, show r.hdr.stop + 2 ^ 64 - 1 = r.hdr.stop + (2 ^ 64 - 1) by omega]

end Sparta.Argos
