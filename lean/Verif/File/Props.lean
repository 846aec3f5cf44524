import Verif.File.Model

/-!
# Properties of checksums and comparisons (C20, C21, C22, C63)
-/

namespace Verif.File

/-! ## Helper lemmas -/

theorem memcmp_eq_zero : ∀ (a b : Bytes), a.length = b.length → (memcmp a b = 0 ↔ a = b) := by
  intro a
  induction a with
  | nil => intro b h; cases b with
    | nil => simp [memcmp]
    | cons => simp at h
  | cons x a ih =>
    intro b h
    cases b with
    | nil => simp at h
    | cons y b =>
      simp at h
      unfold memcmp
      by_cases hxy : x = y
      · simp [hxy, ih b h]
      · simp only [hxy, if_false]
        constructor
        · intro h0; exact absurd (UInt8.toNat_inj.mp (by omega)) hxy
        · intro h0; injection h0 with h1; exact absurd h1 hxy

theorem memcmp_self (a : Bytes) : memcmp a a = 0 := (memcmp_eq_zero a a rfl).mpr rfl

theorem hugeLen_pos : 0 < hugeLen := by decide

/-- What a read that succeeds returns: a non-empty prefix, at most what was asked. -/
theorem read_data {s s' : Stream} {n : Nat} {b : Bytes} (hn : 0 < n) (h : s.read n = (.data b, s')) :
    s.rest = b ++ s'.rest ∧ 0 < b.length ∧ b.length ≤ n := by
  unfold Stream.read at h
  rw [if_neg (by omega)] at h
  split at h
  · simp at h
  · split at h
    · simp at h
    · rename_i k t _ hr
      injection h with h1 h2
      injection h1 with h1; subst h1; subst h2
      have : 0 < s.rest.length := List.length_pos_iff.mpr hr
      exact ⟨(List.take_append_drop _ _).symm, by simp only [List.length_take]; omega, by simp only [List.length_take]; omega⟩
  · split at h
    · simp at h
    · rename_i hr
      injection h with h1 h2
      injection h1 with h1; subst h1; subst h2
      have : 0 < s.rest.length := List.length_pos_iff.mpr hr
      exact ⟨(List.take_append_drop _ _).symm, by simp only [List.length_take]; omega, by simp only [List.length_take]; omega⟩

theorem read_eof {s s' : Stream} {n : Nat} (h : s.read n = (.eof, s')) : s.rest = [] := by
  unfold Stream.read at h
  split at h
  · simp at h
  · split at h
    · simp at h
    · split at h
      · assumption
      · simp at h
    · split at h
      · assumption
      · simp at h

theorem read_err {s s' : Stream} {n : Nat} (h : s.read n = (.err, s')) : none ∈ s.sched := by
  unfold Stream.read at h
  split at h
  · simp at h
  · split at h
    · rename_i t ht; rw [ht]; simp
    · split at h <;> simp at h
    · split at h <;> simp at h

/-- A successful read only consumes schedule entries. -/
theorem read_sched {s s' : Stream} {n : Nat} {x : Read} (h : s.read n = (x, s')) : ∀ o ∈ s'.sched, o ∈ s.sched := by
  unfold Stream.read at h
  split at h
  · injection h with _ h; subst h; intro o ho; exact ho
  · split at h
    · rename_i t ht; injection h with _ h; subst h; intro o ho; rw [ht]; exact List.mem_cons_of_mem _ ho
    · rename_i k t ht
      split at h
      · injection h with _ h; subst h; intro o ho; rw [ht]; exact List.mem_cons_of_mem _ ho
      · injection h with _ h; subst h; intro o ho; rw [ht]; exact List.mem_cons_of_mem _ ho
    · split at h
      · injection h with _ h; subst h; intro o ho; exact ho
      · injection h with _ h; subst h; intro o ho; exact ho

/-! ## Digest (C22) -/

theorem sumLoop_spec : ∀ (fuel : Nat) (s : Stream) (acc : Bytes), s.rest.length < fuel →
    (∃ acc', sumLoop fuel s acc = .ok (false, acc') ∧ none ∈ s.sched) ∨ sumLoop fuel s acc = .ok (true, acc ++ s.rest) := by
  intro fuel
  induction fuel with
  | zero => intro s acc h; omega
  | succ fuel ih =>
    intro s acc h
    unfold sumLoop
    cases hr : s.read hugeLen with
    | mk x s' =>
      cases x with
      | data b =>
        obtain ⟨h1, h2, _⟩ := read_data hugeLen_pos hr
        have hl : s.rest.length = b.length + s'.rest.length := by rw [h1, List.length_append]
        rcases ih s' (acc ++ b) (by omega) with ⟨acc', e, hn⟩ | e
        · left; exact ⟨acc', e, read_sched hr _ hn⟩
        · right; simp only [e, h1, List.append_assoc]
      | eof => right; simp [read_eof hr]
      | err => left; exact ⟨acc, rfl, read_err hr⟩

theorem mapped_all (f : OnDisk) {size : Nat} (h : f.bytes.length = size) : mapped f size = .ok f.bytes := by
  unfold mapped
  rw [if_pos (by omega), h, Nat.sub_self, ← h, List.take_length]
  simp

/-- **C22.** Whatever the threshold, whether or not mapping works and however the reads are
split, a digest that is reported is the digest of exactly the bytes of the file; and one is
reported whenever opening, closing and every read succeed.  (`size` is the length of the file,
as recorded when it was found.) -/
theorem checksum_strategy_independent (H : Bytes → β) (f : OnDisk) (excess fuel : Nat) (hf : f.bytes.length < fuel) :
    (∀ d, checksum H fuel f f.bytes.length excess = .ok (some d) → d = H f.bytes) ∧
    (∃ o, checksum H fuel f f.bytes.length excess = .ok o) ∧
    (f.openOk = true → f.closeOk = true → none ∉ f.sched →
      checksum H fuel f f.bytes.length excess = .ok (some (H f.bytes))) := by
  have hbig : (∃ o, checksumBig H fuel f = .ok o ∧ (o = none ∨ o = some (H f.bytes))) ∧
      (f.openOk = true → f.closeOk = true → none ∉ f.sched → checksumBig H fuel f = .ok (some (H f.bytes))) := by
    unfold checksumBig
    cases ho : f.openOk with
    | false => simp
    | true =>
      rcases sumLoop_spec fuel f.stream [] hf with ⟨acc', e, hn⟩ | e
      · simp only [e, Res.ok_bind, if_true]
        refine ⟨⟨none, rfl, Or.inl rfl⟩, ?_⟩
        intro _ _ hn2; exact absurd hn hn2
      · simp only [e, Res.ok_bind, if_true, List.nil_append]
        cases f.closeOk <;> simp [OnDisk.stream]
  have hall : (∃ o, checksum H fuel f f.bytes.length excess = .ok o ∧ (o = none ∨ o = some (H f.bytes))) ∧
      (f.openOk = true → f.closeOk = true → none ∉ f.sched →
        checksum H fuel f f.bytes.length excess = .ok (some (H f.bytes))) := by
    unfold checksum
    split
    · unfold checksumSmall
      cases ho : f.openOk with
      | false => simp
      | true =>
        cases hm : f.mapOk with
        | false => simpa [ho] using hbig
        | true => rw [mapped_all f rfl]; cases f.closeOk <;> simp
    · exact hbig
  obtain ⟨⟨o, e, ho⟩, h2⟩ := hall
  refine ⟨?_, ⟨o, e⟩, h2⟩
  intro d hd
  rw [e] at hd
  injection hd with hd
  subst hd
  simpa using ho

/-! ## Comparison (C20) -/

/-- One round of the comparison loop when the second file returns all that is asked for. -/
theorem read_full (rest : Bytes) (n : Nat) (hn : 0 < n) (hr : rest ≠ []) :
    (⟨rest, []⟩ : Stream).read n = (.data (rest.take n), ⟨rest.drop n, []⟩) := by
  simp [Stream.read, Nat.ne_of_gt hn, hr]

theorem cmpLoop_equal_len : ∀ (fuel : Nat) (s1 : Stream) (rest2 : Bytes) (r : Int), s1.rest.length < fuel →
    s1.rest.length = rest2.length → none ∉ s1.sched → (s1.rest = [] → r = 0) →
    ∃ r' eof, cmpLoop fuel s1 ⟨rest2, []⟩ r = .ok (r', eof, !eof) ∧ (r' = 0 ↔ s1.rest = rest2) ∧ (r' = 0 → eof = true) := by
  intro fuel
  induction fuel with
  | zero => intro s1 rest2 r h; omega
  | succ fuel ih =>
    intro s1 rest2 r h hlen hno hr0
    unfold cmpLoop
    cases hx : s1.read hugeLen with
    | mk x s1' =>
      cases x with
      | err => exact absurd (read_err hx) hno
      | eof =>
        have he := read_eof hx
        have h2 : rest2 = [] := List.length_eq_zero_iff.mp (by rw [← hlen, he]; rfl)
        refine ⟨r, true, ?_, ?_, by simp⟩
        · simp [h2, Stream.read]
        · simp [he, h2, hr0 he]
      | data b =>
        obtain ⟨h1, h2, h3⟩ := read_data hugeLen_pos hx
        have hl1 : s1.rest.length = b.length + s1'.rest.length := by rw [h1, List.length_append]
        have hne : rest2 ≠ [] := by intro h0; rw [h0, List.length_nil] at hlen; omega
        simp only [read_full rest2 b.length h2 hne]
        have hlb : (rest2.take b.length).length = b.length := by rw [List.length_take]; omega
        simp only [hlb, if_true]
        have hsplit : s1.rest = rest2 ↔ b = rest2.take b.length ∧ s1'.rest = rest2.drop b.length := by
          constructor
          · intro e
            rw [← e, h1]; simp
          · rintro ⟨e1, e2⟩
            rw [h1, e2]
            conv => lhs; arg 1; rw [e1]
            exact List.take_append_drop _ _
        have hm := memcmp_eq_zero b (rest2.take b.length) hlb.symm
        by_cases h0 : memcmp b (rest2.take b.length) = 0
        · simp only [h0, if_true]
          obtain ⟨r', eof, e1, e2, e3⟩ := ih s1' (rest2.drop b.length) 0 (by omega) (by rw [List.length_drop, ← hlen]; omega)
            (fun hh => hno (read_sched hx _ hh)) (fun _ => rfl)
          refine ⟨r', eof, e1, ?_, e3⟩
          rw [e2, hsplit]
          exact ⟨fun e => ⟨hm.mp h0, e⟩, fun e => e.2⟩
        · simp only [h0, if_false]
          refine ⟨memcmp b (rest2.take b.length), false, rfl, ?_, fun hh => absurd hh h0⟩
          rw [hsplit]
          exact ⟨fun hh => absurd hh h0, fun e => absurd (hm.mpr e.1) h0⟩

/-- **C20.** For two readable files of the stated length the comparison succeeds, unless a file cannot
be closed (empty files are not opened), and reports equality exactly if the bytes are equal — for every threshold, whichever mappings fail, whatever
the output variable held before, and however the reads of the first file are split.  (Reads of
the second file return all that is asked for, as they do for regular files; see
`filecmp_sound_under_failures_false` for what happens otherwise.) -/
theorem filecmp_status_and_result (f1 f2 : OnDisk) (size excess fuel : Nat) (r0 : Int)
    (h1 : f1.bytes.length = size) (h2 : f2.bytes.length = size)
    (ho : f1.openOk = true ∧ f2.openOk = true)
    (hs1 : none ∉ f1.sched) (hs2 : f2.sched = []) (hf : size < fuel) :
    ∃ r, filecmp fuel f1 f2 size excess r0 = .ok (decide (size = 0) || (f1.closeOk && f2.closeOk), r) ∧
      (r = 0 ↔ f1.bytes = f2.bytes) := by
  have hzero : size = 0 → f1.bytes = f2.bytes := by
    intro h; rw [List.length_eq_zero_iff.mp (h1.trans h), List.length_eq_zero_iff.mp (h2.trans h)]
  have hbig : ∃ r, bigFilecmp fuel f1 f2 size r0 = .ok (decide (size = 0) || (f1.closeOk && f2.closeOk), r) ∧ (r = 0 ↔ f1.bytes = f2.bytes) := by
    unfold bigFilecmp
    by_cases h0 : size = 0
    · simp [h0, hzero h0]
    · rw [if_neg h0]
      obtain ⟨r', eof, e1, e2, e3⟩ := cmpLoop_equal_len fuel f1.stream f2.bytes r0 (by simp [OnDisk.stream]; omega)
        (by simp [OnDisk.stream]; omega) hs1 (by
          intro he; simp [OnDisk.stream] at he; rw [he] at h1; simp at h1; omega)
      have hst : f2.stream = ⟨f2.bytes, []⟩ := by simp [OnDisk.stream, hs2]
      simp only [ho.1, ho.2, hst, e1, Res.ok_bind, Bool.not_true, Bool.false_eq_true, if_false]
      refine ⟨r', ?_, e2⟩
      cases eof with
      | true => simp [h0, Bool.and_comm]
      | false =>
        have : r' ≠ 0 := by intro hh; have := e3 hh; cases this
        simp [this, h0, Bool.and_comm]
  unfold filecmp
  split
  · unfold smallFilecmp
    by_cases h0 : size = 0
    · simp [h0, hzero h0]
    · rw [if_neg h0]
      simp only [ho.1, ho.2, Bool.not_true, Bool.false_eq_true, if_false]
      cases f1.mapOk with
      | false => exact hbig
      | true =>
        cases f2.mapOk with
        | false => exact hbig
        | true =>
          simp only [Bool.not_true, Bool.false_eq_true, if_false, mapped_all f1 h1, mapped_all f2 h2, Res.ok_bind]
          exact ⟨_, by simp [h0, Bool.and_comm], memcmp_eq_zero _ _ (by omega)⟩
  · exact hbig

/-- **C20**, when closing works. -/
theorem filecmp_decides_equality (f1 f2 : OnDisk) (size excess fuel : Nat) (r0 : Int)
    (h1 : f1.bytes.length = size) (h2 : f2.bytes.length = size)
    (ho : f1.openOk = true ∧ f2.openOk = true) (hc : f1.closeOk = true ∧ f2.closeOk = true)
    (hs1 : none ∉ f1.sched) (hs2 : f2.sched = []) (hf : size < fuel) :
    ∃ r, filecmp fuel f1 f2 size excess r0 = .ok (true, r) ∧ (r = 0 ↔ f1.bytes = f2.bytes) := by
  obtain ⟨r, e, h⟩ := filecmp_status_and_result f1 f2 size excess fuel r0 h1 h2 ho hs1 hs2 hf
  rw [hc.1, hc.2] at e
  exact ⟨r, by simpa using e, h⟩

/-! ## Files that changed length (C21) -/

/-- **C21 is false of the code**, in general: with plain reads, when the first file has become a
proper prefix of the second the two are reported equal. -/
theorem shrunk_first_reported_equal (a b : Bytes) (size excess : Nat) (r0 : Int)
    (hs : 0 < size) (hex : excess ≤ size) (ha : a ≠ []) :
    filecmp (a.length + 2) ⟨a, [], true, true, true⟩ ⟨a ++ b, [], true, true, true⟩ size excess r0 = .ok (true, 0) := by
  have loop : ∀ (fuel : Nat) (a : Bytes) (r : Int), a.length + 1 < fuel → (a = [] → r = 0) →
      cmpLoop fuel ⟨a, []⟩ ⟨a ++ b, []⟩ r = .ok (0, true, false) := by
    intro fuel
    induction fuel with
    | zero => intro a r h; omega
    | succ fuel ih =>
      intro a r h hr
      unfold cmpLoop
      by_cases ha : a = []
      · subst ha; simp [Stream.read, Nat.ne_of_gt hugeLen_pos, hr rfl]
      · have hl : 0 < a.length := List.length_pos_iff.mpr ha
        have hp := hugeLen_pos
        simp only [read_full a hugeLen hugeLen_pos ha]
        have hab : a ++ b ≠ [] := by simp [ha]
        have hlt : 0 < (a.take hugeLen).length := by simp only [List.length_take]; omega
        simp only [read_full (a ++ b) _ hlt hab]
        have e1 : (a ++ b).take (a.take hugeLen).length = a.take hugeLen := by
          rw [List.length_take, List.take_append_of_le_length (by omega)]
          by_cases h : hugeLen ≤ a.length
          · rw [Nat.min_eq_left h]
          · rw [Nat.min_eq_right (by omega), List.take_of_length_le (by omega), List.take_of_length_le (by omega)]
        have e2 : (a ++ b).drop (a.take hugeLen).length = a.drop hugeLen ++ b := by
          rw [List.length_take, List.drop_append_of_le_length (by omega)]
          by_cases h : hugeLen ≤ a.length
          · rw [Nat.min_eq_left h]
          · rw [Nat.min_eq_right (by omega), List.drop_of_length_le (by omega), List.drop_of_length_le (by omega)]
        simp only [e1, e2, memcmp_self, if_true]
        exact ih (a.drop hugeLen) 0 (by simp; omega) (fun _ => rfl)
  have hl := loop (a.length + 2) a r0 (by omega) (fun h => absurd h ha)
  unfold filecmp bigFilecmp
  rw [if_neg (by omega), if_neg (by omega)]
  simp [OnDisk.stream, hl]

/-- Even completely different bytes are reported equal when the second file is shorter and both
fit in one chunk: the chunk is then not compared at all and the result keeps its initial 0. -/
theorem shrunk_second_reported_equal (a b : Bytes) (size excess : Nat)
    (hs : 0 < size) (hex : excess ≤ size) (ha : a.length ≤ 65536) (hb : b ≠ []) (hlt : b.length < a.length) :
    filecmp 1 ⟨a, [], true, true, true⟩ ⟨b, [], true, true, true⟩ size excess 0 = .ok (true, 0) := by
  have hane : a ≠ [] := by intro h; subst h; simp at hlt
  have hta : a.take hugeLen = a := List.take_of_length_le ha
  have hal : 0 < a.length := List.length_pos_iff.mpr hane
  have hl : cmpLoop 1 ⟨a, []⟩ ⟨b, []⟩ 0 = .ok (0, false, true) := by
    unfold cmpLoop
    simp only [read_full a hugeLen hugeLen_pos hane, hta, read_full b a.length hal hb]
    have : (b.take a.length).length ≠ a.length := by simp only [List.length_take]; omega
    simp only [this, if_false]
  unfold filecmp bigFilecmp
  rw [if_neg (by omega), if_neg (by omega)]
  simp [OnDisk.stream, hl]

theorem cmpLoop_chunks : ∀ (k fuel : Nat) (a b : Bytes) (r : Int), k < fuel + 1 →
    k * hugeLen ≤ a.length → k * hugeLen ≤ b.length → a.take (k * hugeLen) ≠ b.take (k * hugeLen) →
    ∃ r', r' ≠ 0 ∧ cmpLoop fuel ⟨a, []⟩ ⟨b, []⟩ r = .ok (r', false, true) := by
  intro k
  induction k with
  | zero => intro fuel a b r _ _ _ h; simp at h
  | succ k ih =>
    intro fuel a b r hk ha hb hne
    have hp := hugeLen_pos
    rw [Nat.succ_mul] at ha hb hne
    obtain ⟨fuel, rfl⟩ : ∃ f, fuel = f + 1 := ⟨fuel - 1, by omega⟩
    have n1 : a ≠ [] := by intro h; rw [h, List.length_nil] at ha; omega
    have n2 : b ≠ [] := by intro h; rw [h, List.length_nil] at hb; omega
    have hl1 : (a.take hugeLen).length = hugeLen := by rw [List.length_take]; omega
    have hl2 : (b.take hugeLen).length = hugeLen := by rw [List.length_take]; omega
    unfold cmpLoop
    simp only [read_full a hugeLen hp n1, hl1, read_full b hugeLen hp n2, hl2, if_true]
    by_cases hm : memcmp (a.take hugeLen) (b.take hugeLen) = 0
    · simp only [hm, if_true]
      have e := (memcmp_eq_zero _ _ (by omega)).mp hm
      refine ih fuel (a.drop hugeLen) (b.drop hugeLen) 0 (by omega) (by rw [List.length_drop]; omega)
        (by rw [List.length_drop]; omega) ?_
      intro h
      apply hne
      rw [Nat.add_comm, List.take_add, List.take_add, e, h]
    · simp only [hm, if_false]
      exact ⟨_, hm, rfl⟩

/-- A file below the threshold is compared through mappings of the length recorded earlier.  If both
files still reach into the last page of that length, what is compared are the first `size` bytes with
zeros in place of those that are gone; otherwise the access is undefined. -/
theorem mapped_comparison (f1 f2 : OnDisk) (size excess fuel : Nat) (r0 : Int) (hs : 0 < size) (hex : size < excess)
    (ho : f1.openOk = true ∧ f2.openOk = true) (hm : f1.mapOk = true ∧ f2.mapOk = true) :
    ((size ≤ (f1.bytes.length + 4095) / 4096 * 4096 ∧ size ≤ (f2.bytes.length + 4095) / 4096 * 4096) →
      ∃ r, filecmp fuel f1 f2 size excess r0 = .ok (f1.closeOk && f2.closeOk, r) ∧
        (r = 0 ↔ ∀ i, i < size → f1.bytes[i]?.getD 0 = f2.bytes[i]?.getD 0)) ∧
    (¬ (size ≤ (f1.bytes.length + 4095) / 4096 * 4096 ∧ size ≤ (f2.bytes.length + 4095) / 4096 * 4096) →
      filecmp fuel f1 f2 size excess r0 = .ub) := by
  have hlen : ∀ f : OnDisk, (f.bytes.take size ++ List.replicate (size - f.bytes.length) (0 : UInt8)).length = size := by
    intro f; simp only [List.length_append, List.length_take, List.length_replicate]; omega
  have hget : ∀ (f : OnDisk) i, i < size →
      (f.bytes.take size ++ List.replicate (size - f.bytes.length) (0 : UInt8))[i]? = some (f.bytes[i]?.getD 0) := by
    intro f i hi
    by_cases h : i < f.bytes.length
    · rw [List.getElem?_append_left (by rw [List.length_take]; omega), List.getElem?_take_of_lt hi, List.getElem?_eq_getElem h]
      rfl
    · rw [List.getElem?_append_right (by rw [List.length_take]; omega), List.getElem?_replicate, List.length_take, if_pos (by omega),
        List.getElem?_eq_none (by omega)]
      rfl
  have hun : filecmp fuel f1 f2 size excess r0 = (mapped f1 size >>= fun b1 => mapped f2 size >>= fun b2 =>
      .ok (f2.closeOk && f1.closeOk, memcmp b1 b2)) := by
    unfold filecmp smallFilecmp
    rw [if_pos hex, if_neg (by omega)]
    simp [ho.1, ho.2, hm.1, hm.2]
  rw [hun]
  constructor
  · rintro ⟨h1, h2⟩
    unfold mapped
    rw [if_pos h1, if_pos h2]
    simp only [Res.ok_bind]
    refine ⟨_, by rw [Bool.and_comm], ?_⟩
    rw [memcmp_eq_zero _ _ (by rw [hlen, hlen])]
    constructor
    · intro e i hi
      have := congrArg (·[i]?) e
      simp only [hget f1 i hi, hget f2 i hi, Option.some.injEq] at this
      exact this
    · intro h
      apply List.ext_getElem?
      intro i
      rcases Nat.lt_or_ge i size with hi | hi
      · rw [hget f1 i hi, hget f2 i hi, h i hi]
      · rw [List.getElem?_eq_none (by rw [hlen]; exact hi), List.getElem?_eq_none (by rw [hlen]; exact hi)]
  · intro hn
    unfold mapped
    by_cases h1 : size ≤ (f1.bytes.length + 4095) / 4096 * 4096
    · rw [if_pos h1, if_neg (fun h2 => hn ⟨h1, h2⟩)]
      rfl
    · rw [if_neg h1]
      rfl

/-- Also through mappings, a file that lost its last bytes is reported equal to one that has zeros
there. -/
theorem shrunk_mapped_reported_equal :
    filecmp 1 ⟨[1], [], true, true, true⟩ ⟨[1, 0], [], true, true, true⟩ 2 100 7 = .ok (true, 0) := by decide +kernel

/-- How many bytes of two files that are read are compared: all of the first, or, if the second is shorter, its complete 64 KiB chunks. -/
def compared (a b : Bytes) : Nat := if a.length ≤ b.length then a.length else b.length / 65536 * 65536

theorem cmpLoop_exact : ∀ (fuel : Nat) (a b : Bytes) (r : Int), a.length < fuel →
    ∃ r' eof ok1, cmpLoop fuel ⟨a, []⟩ ⟨b, []⟩ r = .ok (r', eof, ok1) ∧ (eof = false → r' = 0 → ok1 = true) ∧
      (r' = 0 ↔ a.take (compared a b) = b.take (compared a b) ∧ (compared a b = 0 → r = 0)) := by
  intro fuel
  induction fuel with
  | zero => intro a b r h; omega
  | succ fuel ih =>
    intro a b r hf
    have hp := hugeLen_pos
    have hv : hugeLen = 65536 := rfl
    by_cases ha : a = []
    · subst ha
      refine ⟨r, true, false, ?_, by simp, ?_⟩
      · unfold cmpLoop
        simp [Stream.read, Nat.ne_of_gt hp]
      · simp [compared]
    · have hal : 0 < a.length := List.length_pos_iff.mpr ha
      have hta : (a.take hugeLen).length = min hugeLen a.length := by rw [List.length_take]
      have hn : 0 < (a.take hugeLen).length := by omega
      unfold cmpLoop
      simp only [read_full a hugeLen hp ha]
      by_cases hb : b = []
      · subst hb
        have hc : compared a [] = 0 := by simp [compared, ha]
        refine ⟨r, true, true, ?_, by simp, by simp [hc]⟩
        simp only [Stream.read, Nat.ne_of_gt hn, if_false, if_true]
        simp
      · simp only [read_full b _ hn hb]
        have hlb : (b.take (a.take hugeLen).length).length = min (a.take hugeLen).length b.length := by rw [List.length_take]
        by_cases hs : b.length < (a.take hugeLen).length
        · have hc : compared a b = 0 := by
            unfold compared
            rw [if_neg (by omega), Nat.div_eq_of_lt (by omega), Nat.zero_mul]
          refine ⟨r, false, true, ?_, by simp, by simp [hc]⟩
          rw [if_neg (by omega)]
        · rw [if_pos (by omega)]
          have hle : (a.take hugeLen).length ≤ compared a b := by
            unfold compared
            split
            · omega
            · rw [hta]
              have : hugeLen ≤ b.length := by omega
              rw [hv] at this ⊢
              have : 1 ≤ b.length / 65536 := by omega
              omega
          have hcut : ∀ x : Bytes, x.take (compared a b) = x.take (a.take hugeLen).length ++ (x.drop (a.take hugeLen).length).take (compared a b - (a.take hugeLen).length) := by
            intro x
            conv => lhs; rw [show compared a b = (a.take hugeLen).length + (compared a b - (a.take hugeLen).length) by omega]
            rw [List.take_add]
          have hst : a.take (a.take hugeLen).length = a.take hugeLen := by
            rw [hta]
            by_cases h : hugeLen ≤ a.length
            · rw [Nat.min_eq_left h]
            · rw [Nat.min_eq_right (by omega), List.take_length, List.take_of_length_le (by omega)]
          have hsd : a.drop (a.take hugeLen).length = a.drop hugeLen := by
            rw [hta]
            by_cases h : hugeLen ≤ a.length
            · rw [Nat.min_eq_left h]
            · rw [Nat.min_eq_right (by omega), List.drop_length, List.drop_of_length_le (by omega)]
          have hl : (a.take hugeLen).length = (b.take (a.take hugeLen).length).length := by omega
          by_cases hm : memcmp (a.take hugeLen) (b.take (a.take hugeLen).length) = 0
          · rw [if_pos hm, hm]
            have heq := (memcmp_eq_zero _ _ hl).mp hm
            obtain ⟨r', eof, ok1, e, h1, h2⟩ := ih (a.drop hugeLen) (b.drop (a.take hugeLen).length) 0 (by rw [List.length_drop]; omega)
            refine ⟨r', eof, ok1, e, h1, ?_⟩
            have hcc : compared (a.drop hugeLen) (b.drop (a.take hugeLen).length) = compared a b - (a.take hugeLen).length := by
              unfold compared
              rw [List.length_drop, List.length_drop, hta, hv]
              split <;> split <;> omega
            rw [h2, hcc, hcut a, hcut b, hst, hsd]
            constructor
            · rintro ⟨h, -⟩
              refine ⟨?_, fun h0 => by omega⟩
              rw [heq.symm, h]
            · rintro ⟨h, -⟩
              exact ⟨(List.append_inj h hl).2, fun _ => rfl⟩
          · rw [if_neg hm]
            refine ⟨_, false, true, rfl, by simp, ?_⟩
            constructor
            · intro h; exact absurd h hm
            · rintro ⟨h, -⟩
              rw [hcut a, hcut b, hst] at h
              exact absurd ((memcmp_eq_zero _ _ hl).mpr (List.append_inj h hl).1) hm

/-- **C21.** What the comparison of two files that are read and not mapped says, whatever their lengths have become: exactly the bytes counted by `compared` decide,
and if there are none the result variable stays as it was. -/
theorem read_comparison (f1 f2 : OnDisk) (size excess fuel : Nat) (r0 : Int) (hs : 0 < size) (hex : excess ≤ size)
    (ho : f1.openOk = true ∧ f2.openOk = true) (hc : f1.closeOk = true ∧ f2.closeOk = true)
    (hs1 : f1.sched = []) (hs2 : f2.sched = []) (hf : f1.bytes.length < fuel) :
    ∃ r, filecmp fuel f1 f2 size excess r0 = .ok (true, r) ∧
      (r = 0 ↔ f1.bytes.take (compared f1.bytes f2.bytes) = f2.bytes.take (compared f1.bytes f2.bytes) ∧ (compared f1.bytes f2.bytes = 0 → r0 = 0)) := by
  obtain ⟨r, eof, ok1, e, h1, h2⟩ := cmpLoop_exact fuel f1.bytes f2.bytes r0 hf
  refine ⟨r, ?_, h2⟩
  unfold filecmp bigFilecmp
  rw [if_neg (by omega), if_neg (by omega), ho.1, ho.2]
  simp only [OnDisk.stream, hs1, hs2, e, Res.ok_bind, hc.1, hc.2]
  cases eof with
  | true => simp
  | false =>
    by_cases hr : r = 0
    · simp [hr, h1 rfl hr]
    · simp [hr]

/-- Two files of which the second has lost its end: 65536 equal bytes, then one that is there only in the first. -/
example (n : Nat) (hn : n = 65536) (x : UInt8) : compared (List.replicate n 7 ++ [x]) (List.replicate n 7) = 65536 ∧
    (List.replicate n 7 ++ [x]).take n = List.replicate n 7 := by
  refine ⟨?_, ?_⟩
  · unfold compared
    rw [List.length_append, List.length_replicate, if_neg (by simp), hn]
  · rw [List.take_append_of_le_length (by rw [List.length_replicate]; omega), List.take_of_length_le (by rw [List.length_replicate]; omega)]

/-- **C21, partial.** What holds: a difference inside the whole 64 KiB chunks that both files
still fill is found.  Missing: differences in the last, incomplete chunk and in the length — see
the two theorems above. -/
theorem changed_length_detected_partial (f1 f2 : OnDisk) (size excess fuel k : Nat) (r0 : Int)
    (hs : 0 < size) (hex : excess ≤ size)
    (ho : f1.openOk = true ∧ f2.openOk = true) (hc : f1.closeOk = true ∧ f2.closeOk = true)
    (hs1 : f1.sched = []) (hs2 : f2.sched = []) (hk : k ≤ fuel)
    (h1 : k * 65536 ≤ f1.bytes.length) (h2 : k * 65536 ≤ f2.bytes.length)
    (hd : f1.bytes.take (k * 65536) ≠ f2.bytes.take (k * 65536)) :
    ∃ r, filecmp fuel f1 f2 size excess r0 = .ok (true, r) ∧ r ≠ 0 := by
  obtain ⟨r', hr, hl⟩ := cmpLoop_chunks k fuel f1.bytes f2.bytes r0 (by omega) h1 h2 hd
  refine ⟨r', ?_, hr⟩
  unfold filecmp bigFilecmp
  rw [if_neg (by omega), if_neg (by omega)]
  simp [ho, hc, OnDisk.stream, hs1, hs2, hl, hr]

/-! ## Failing and short reads (C63) -/

/-- **C63 is false of the code.** Two different files of the same length are reported equal
(1) when a read of the second one fails, (2) when a read of the second one is short. -/
theorem filecmp_sound_under_failures_false :
    filecmp 9 ⟨[1, 2], [], true, true, true⟩ ⟨[3, 4], [none], true, true, true⟩ 2 0 0 = .ok (true, 0) ∧
    filecmp 9 ⟨[1, 2], [], true, true, true⟩ ⟨[3, 4], [some 0], true, true, true⟩ 2 0 0 = .ok (true, 0) := by
  decide +kernel

theorem cmpLoop_first_err : ∀ (fuel : Nat) (s1 s2 : Stream) (r r' : Int) (eof ok1 : Bool), s2.sched = [] →
    cmpLoop fuel s1 s2 r = .ok (r', eof, ok1) → s1.rest.length = s2.rest.length → r' = 0 → eof = false → ok1 = false := by
  intro fuel
  induction fuel with
  | zero => intro s1 s2 r r' eof ok1 _ h; simp [cmpLoop] at h
  | succ fuel ih =>
    intro s1 s2 r r' eof ok1 hs h hlen hr he
    unfold cmpLoop at h
    obtain ⟨rest2, sched2⟩ := s2
    simp only at hs; subst hs
    cases hx : s1.read hugeLen with
    | mk x s1' =>
      rw [hx] at h
      cases x with
      | err => simp [Stream.read] at h; exact h.2.2
      | eof => simp [Stream.read] at h; exact h.2.2
      | data b =>
        obtain ⟨h1, h2, h3⟩ := read_data hugeLen_pos hx
        have hl1 : s1.rest.length = b.length + s1'.rest.length := by rw [h1, List.length_append]
        have hne : rest2 ≠ [] := by intro h0; simp only [h0, List.length_nil] at hlen; omega
        simp only [read_full rest2 b.length h2 hne] at h
        simp only at hlen
        have hlb : (rest2.take b.length).length = b.length := by simp; omega
        simp only [hlb, if_true] at h
        split at h
        · exact ih s1' ⟨rest2.drop b.length, []⟩ _ r' eof ok1 rfl h (by simp only [List.length_drop]; omega) hr he
        · rename_i hm
          simp at h
          exact absurd (h.1.trans hr) hm

/-- **C63, partial.** If only reads of the *first* file may be short or fail, equality is never
reported for files of the same length whose content differs.  Missing: failures on the second
file (false, see above). -/
theorem filecmp_sound_first_partial (f1 f2 : OnDisk) (size excess fuel : Nat) (r0 : Int)
    (h1 : f1.bytes.length = size) (h2 : f2.bytes.length = size) (hs2 : f2.sched = [])
    (heq : filecmp fuel f1 f2 size excess r0 = .ok (true, 0)) : f1.bytes = f2.bytes := by
  have gen : ∀ (fuel : Nat) (s1 : Stream) (rest2 : Bytes) (r : Int) (ok1 : Bool), s1.rest.length = rest2.length →
      cmpLoop fuel s1 ⟨rest2, []⟩ r = .ok (0, true, ok1) → s1.rest = rest2 := by
    intro fuel
    induction fuel with
    | zero => intro s1 rest2 r ok1 _ h; simp [cmpLoop] at h
    | succ fuel ih =>
      intro s1 rest2 r ok1 hlen h
      unfold cmpLoop at h
      cases hx : s1.read hugeLen with
      | mk x s1' =>
        rw [hx] at h
        cases x with
        | err => simp [Stream.read] at h
        | eof =>
          have he := read_eof hx
          rw [he] at hlen ⊢
          exact (List.length_eq_zero_iff.mp hlen.symm).symm
        | data b =>
          obtain ⟨h1, h2, h3⟩ := read_data hugeLen_pos hx
          have hl1 : s1.rest.length = b.length + s1'.rest.length := by rw [h1, List.length_append]
          have hne : rest2 ≠ [] := by intro h0; simp only [h0, List.length_nil] at hlen; omega
          simp only [read_full rest2 b.length h2 hne] at h
          have hlb : (rest2.take b.length).length = b.length := by simp; omega
          simp only [hlb, if_true] at h
          split at h
          · rename_i hm
            have e1 := (memcmp_eq_zero b _ hlb.symm).mp hm
            have e2 := ih s1' (rest2.drop b.length) _ ok1 (by rw [List.length_drop]; omega) h
            rw [h1, e2]
            conv => lhs; arg 1; rw [e1]
            exact List.take_append_drop _ _
          · simp at h
  have hzero : size = 0 → f1.bytes = f2.bytes := by
    intro h; rw [List.length_eq_zero_iff.mp (h1.trans h), List.length_eq_zero_iff.mp (h2.trans h)]
  have hbig : bigFilecmp fuel f1 f2 size r0 = .ok (true, 0) → f1.bytes = f2.bytes := by
    intro h
    unfold bigFilecmp at h
    by_cases h0 : size = 0
    · exact hzero h0
    · rw [if_neg h0] at h
      split at h
      · simp at h
      · split at h
        · simp at h
        · rw [Res.bind_eq_ok] at h
          obtain ⟨⟨r, eof, ok1⟩, e1, e2⟩ := h
          have hst : f2.stream = ⟨f2.bytes, []⟩ := by simp [OnDisk.stream, hs2]
          rw [hst] at e1
          cases eof with
          | true =>
            simp at e2
            rw [e2.2] at e1
            exact gen fuel f1.stream f2.bytes r0 ok1 (by simp [OnDisk.stream]; omega) e1
          | false =>
            by_cases hr : r = 0
            · simp [hr] at e2
              have := cmpLoop_first_err fuel _ _ _ _ _ _ rfl e1 (by simp [OnDisk.stream]; omega) hr rfl
              rw [this] at e2; simp at e2
            · simp [hr] at e2
  unfold filecmp at heq
  split at heq
  · unfold smallFilecmp at heq
    by_cases h0 : size = 0
    · exact hzero h0
    · rw [if_neg h0] at heq
      split at heq
      · simp at heq
      · split at heq
        · exact hbig heq
        · split at heq
          · simp at heq
          · split at heq
            · exact hbig heq
            · rw [mapped_all f1 h1, mapped_all f2 h2] at heq
              simp only [Res.ok_bind] at heq
              injection heq with heq
              injection heq with _ heq
              exact (memcmp_eq_zero _ _ (by omega)).mp heq
  · exact hbig heq

/-! ## Non-vacuity -/

example : ∃ r, filecmp 9 ⟨[1, 2, 3], [some 0, some 1], true, false, true⟩ ⟨[1, 2, 3], [], true, true, true⟩ 3 100 7 = .ok (true, r) ∧
    (r = 0 ↔ ([1, 2, 3] : Bytes) = [1, 2, 3]) :=
  filecmp_decides_equality _ _ 3 100 9 7 rfl rfl (by decide) (by decide) (by decide) rfl (by decide)

example : checksum (fun b => b) 9 ⟨[1, 2, 3], [some 0, some 0], true, false, true⟩ 3 100 = .ok (some [1, 2, 3]) := by decide +kernel

theorem replicate_ne (n : Nat) (h : 0 < n) : List.replicate n (1 : UInt8) ≠ List.replicate n 2 := by
  cases n with
  | zero => omega
  | succ n => rw [List.replicate_succ, List.replicate_succ]; intro h; injection h with h _; revert h; decide

example (n : Nat) (hn : n = 1 * 65536) :
    ∃ r, filecmp 1 ⟨List.replicate n 1, [], true, true, true⟩ ⟨List.replicate n 2, [], true, true, true⟩ 5 0 0 = .ok (true, r) ∧ r ≠ 0 :=
  changed_length_detected_partial _ _ 5 0 1 1 0 (by decide) (by decide) ⟨rfl, rfl⟩ ⟨rfl, rfl⟩ rfl rfl (by decide)
    (by rw [List.length_replicate]; omega) (by rw [List.length_replicate]; omega)
    (by rw [← hn, List.take_of_length_le (by rw [List.length_replicate]; exact Nat.le_refl _),
          List.take_of_length_le (by rw [List.length_replicate]; exact Nat.le_refl _)]
        exact replicate_ne n (by omega))

/-- Two mapped files of which the second was cut: compared with zeros in place of the lost bytes. -/
example : ∃ r, filecmp 1 ⟨[1, 2, 3], [], true, true, false⟩ ⟨[1], [], true, true, true⟩ 3 100 7 = .ok (false, r) ∧
    (r = 0 ↔ ∀ i, i < 3 → ([1, 2, 3] : Bytes)[i]?.getD 0 = ([1] : Bytes)[i]?.getD 0) :=
  (mapped_comparison _ _ 3 100 1 7 (by decide) (by decide) ⟨rfl, rfl⟩ ⟨rfl, rfl⟩).1 (by decide)

example : filecmp 3 ⟨[1], [], true, true, true⟩ ⟨[1] ++ [2], [], true, true, true⟩ 1 0 5 = .ok (true, 0) :=
  shrunk_first_reported_equal [1] [2] 1 0 5 (by decide) (by decide) (by decide)

end Verif.File
