import Verif.Xxh.Collide
import Verif.Report.Disk

/-!
# The digest of files: proofs of C111 and C112, and C64 with the real digest
-/

namespace Verif.Xxh3

/-! ## In one call or in pieces (C111) -/

/-- **C111.**  Every input has a digest, and no byte outside the input is read for it.  If the same bytes are passed in pieces, whatever their number and their lengths (also none), and whatever the
memory of the state held before, no byte outside the buffer is read or written, and the digest is that of the whole. -/
theorem digest_of_pieces (junk : Bytes) (hj : junk.length = 256) (pieces : List Bytes) (hl : pieces.flatten.length < 2 ^ 64) :
    ∃ st h, updates (reset junk) pieces = .ok st ∧ digest st = .ok h ∧ xxh128 pieces.flatten = .ok h := by
  obtain ⟨st, c, e, hs⟩ := updates_holds pieces (holds_reset hj)
  rw [List.nil_append] at hs
  obtain ⟨h, hh⟩ := xxh128_ok pieces.flatten
  exact ⟨st, h, e, by rw [digest_holds hs hl, hh], hh⟩

/-- Pieces of 1, 0, 300, 256 and 2 bytes. -/
example : ([[7], [], List.replicate 300 1, List.replicate 256 2, [3, 4]] : List Bytes).flatten.length < 2 ^ 64 ∧ (List.replicate 256 0 : Bytes).length = 256 := by decide +kernel

/-! ## Which digests tell contents apart (C112) -/

/-- **C112, part.**  Contents of the same length, of at most 16 bytes, have the same digest only if they are equal. -/
theorem short_digest_exact {a b : Bytes} (hl : a.length = b.length) (h : a.length ≤ 16) (e : xxh128 a = xxh128 b) : a = b := by
  unfold xxh128 at e
  rw [if_pos h, if_pos (by omega)] at e
  exact len0to16_inj hl h e

theorem leBytes_inj {n x y : Nat} (hx : x < 256 ^ n) (hy : y < 256 ^ n) (e : leBytes n x = leBytes n y) : x = y := by
  have := congrArg leNat e
  rwa [leNat_leBytes, leNat_leBytes, Nat.mod_eq_of_lt hx, Nat.mod_eq_of_lt hy] at this

/-- **C112.**  For contents of `n` bytes the digest decides equality exactly if `n` is at most 16: of any greater length there are different contents with the same digest. -/
theorem digest_exact_iff (n : Nat) : (∀ a b : Bytes, a.length = n → b.length = n → xxh128 a = xxh128 b → a = b) ↔ n ≤ 16 := by
  constructor
  · intro h
    have hnd : ((List.range (256 ^ n)).map (fun x => (hash (leBytes n x)).lo.toNat + 2 ^ 64 * (hash (leBytes n x)).hi.toNat)).Nodup := by
      rw [List.nodup_iff_pairwise_ne, List.pairwise_map]
      refine List.Pairwise.imp_of_mem ?_ (List.nodup_iff_pairwise_ne.mp List.nodup_range)
      intro x y hx hy hne e
      rw [List.mem_range] at hx hy
      apply hne
      have l1 := (hash (leBytes n x)).lo.isLt
      have l2 := (hash (leBytes n y)).lo.isLt
      have hlo : (hash (leBytes n x)).lo = (hash (leBytes n y)).lo := BitVec.eq_of_toNat_eq (by omega)
      have hhi : (hash (leBytes n x)).hi = (hash (leBytes n y)).hi := BitVec.eq_of_toNat_eq (by omega)
      have hh : hash (leBytes n x) = hash (leBytes n y) := by
        cases hx' : hash (leBytes n x); cases hy' : hash (leBytes n y)
        rw [hx', hy'] at hlo hhi
        simp only at hlo hhi
        rw [hlo, hhi]
      exact leBytes_inj hx hy (h _ _ (leBytes_length n x) (leBytes_length n y) (by rw [xxh128_hash, xxh128_hash, hh]))
    have hle := Report.nodup_length_le _ (List.range (2 ^ 128)) hnd (by
      intro z hz
      obtain ⟨x, _, rfl⟩ := List.mem_map.1 hz
      rw [List.mem_range]
      have l1 := (hash (leBytes n x)).lo.isLt
      have l2 := (hash (leBytes n x)).hi.isLt
      omega)
    rw [List.length_map, List.length_range, List.length_range, show (256 : Nat) = 2 ^ 8 from rfl, ← Nat.pow_mul] at hle
    have := (Nat.pow_le_pow_iff_right (by decide : 1 < 2)).1 hle
    omega
  · intro hn a b ha hb e
    exact short_digest_exact (by omega) (by omega) e

/-- **C112, part.**  Different contents with the same digest, of 32 bytes or of 48 to 240 bytes: whatever follows the first sixteen bytes, and for every difference `d`. -/
theorem collisions_medium (d : D) (rest : Bytes) (h : rest.length = 16 ∨ 32 ≤ rest.length) (h' : rest.length ≤ 224) :
    xxh128 (le64 (k0 + d) ++ (le64 k1 ++ rest)) = xxh128 (le64 k0 ++ (le64 (k1 + d) ++ rest)) ∧
    (d ≠ 0 → le64 (k0 + d) ++ (le64 k1 ++ rest) ≠ le64 k0 ++ (le64 (k1 + d) ++ rest)) := by
  have hal := alike_of d rest
  have hlen : (le64 (k0 + d) ++ (le64 k1 ++ rest)).length = 16 + rest.length := by
    simp only [List.length_append, le64_length]; omega
  constructor
  · unfold xxh128
    rw [← hal.len]
    have h16 : ¬ (le64 (k0 + d) ++ (le64 k1 ++ rest)).length ≤ 16 := by omega
    have h240 : (le64 (k0 + d) ++ (le64 k1 ++ rest)).length ≤ 240 := by omega
    by_cases h1 : (le64 (k0 + d) ++ (le64 k1 ++ rest)).length ≤ 128
    · simp only [if_neg h16, if_pos h1, len17to128_alike hal (by omega)]
    · simp only [if_neg h16, if_neg h1, if_pos h240, len129to240_alike hal (by omega)]
  · intro hd e
    have := congrArg (fun m => rd64 m 0) e
    simp only [(first_two _ _ _).1] at this
    have := Res.ok.inj this
    exact hd (add_right_inj (a := k0) (by rw [this]; exact (BitVec.add_zero _).symm))

/-- **C112, part.**  Different contents with the same digest, of any length above 240. -/
theorem collisions_long (d : D) (r1 r2 : Bytes) (h1 : r1.length = 56) (h2 : 168 < r2.length) :
    xxh128 (le64 (k0 + (d <<< 32)) ++ (r1 ++ (le64 k1 ++ r2))) = xxh128 (le64 k0 ++ (r1 ++ (le64 (k1 + (d <<< 32)) ++ r2))) ∧
    (d <<< 32 ≠ 0 → le64 (k0 + (d <<< 32)) ++ (r1 ++ (le64 k1 ++ r2)) ≠ le64 k0 ++ (r1 ++ (le64 (k1 + (d <<< 32)) ++ r2))) := by
  have hal := alikeLong_of d h1 h2
  have hlong := hal.long
  constructor
  · unfold xxh128
    rw [← hal.len, if_neg (by omega), if_neg (by omega), if_neg (by omega), if_neg (by omega), if_neg (by omega), if_neg (by omega), hashLong_alike hal]
  · intro hd e
    have := congrArg (fun m => rd64 m 0) e
    have a0 : ∀ (x : D) (r : Bytes), rd64 (le64 x ++ r) 0 = .ok x := fun x r => rd64_le64 (a := []) rfl rfl
    simp only [a0] at this
    have := Res.ok.inj this
    exact hd (add_right_inj (a := k0) (by rw [this]; exact (BitVec.add_zero _).symm))

example : xxh128 (le64 (k0 + 1) ++ (le64 k1 ++ List.replicate 16 0)) = .ok ⟨0xb2ba181fb98589f2#64, 0xf31def3f6d73442a#64⟩ := by decide +kernel

/-! ## Reading a file (C22 with the functions of the library) -/

open Verif.File (OnDisk Stream)
open Verif.Report (FileEnt)

/-- ft_file.c L104-116: as `File.sumLoop`, with the calls of `XXH3_128bits_update`. -/
def readLoop : Nat → Stream → State → Res (Bool × State)
  | 0, _, _ => .div
  | fuel + 1, s, st =>
    match s.read File.hugeLen with
    | (.data b, s') => do
      let st ← update st b
      readLoop fuel s' st
    | (.eof, _) => .ok (true, st)
    | (.err, _) => .ok (false, st)

/-- ft_file.c L82-135 `checksum_big_file`; `junk` is what the memory of the state held (L92). -/
def sumBig (junk : Bytes) (fuel : Nat) (f : OnDisk) : Res (Option Hash128) :=
  if f.openOk then do
    let (eof, st) ← readLoop fuel f.stream (reset junk)
    if eof then do
      let h ← digest st
      .ok (if f.closeOk then some h else none)
    else .ok none
  else .ok none

/-- ft_file.c L46-80 `checksum_small_file`. -/
def sumSmall (junk : Bytes) (fuel : Nat) (f : OnDisk) (size : Nat) : Res (Option Hash128) :=
  if f.openOk then
    if f.mapOk then do
      let b ← File.mapped f size
      let h ← xxh128 b
      .ok (if f.closeOk then some h else none)
    else sumBig junk fuel f
  else .ok none

/-- ft_file.c L137-144 `checksum_file`. -/
def sumFile (junk : Bytes) (fuel : Nat) (f : OnDisk) (size excess : Nat) : Res (Option Hash128) :=
  if size < excess then sumSmall junk fuel f size else sumBig junk fuel f

theorem readLoop_spec (fuel : Nat) : ∀ (s : Stream) (xs : Bytes) (c : Nat) (st : State), Holds xs c st →
    match File.sumLoop fuel s xs with
    | .ok (eof, ys) => ∃ st' c', readLoop fuel s st = .ok (eof, st') ∧ Holds ys c' st'
    | .ub => readLoop fuel s st = .ub
    | .div => readLoop fuel s st = .div := by
  induction fuel with
  | zero => intros; rfl
  | succ fuel ih =>
    intro s xs c st h
    rw [File.sumLoop, readLoop]
    cases hr : s.read File.hugeLen with
    | mk x s' =>
      cases x with
      | data b =>
        obtain ⟨st', c', e, h'⟩ := update_holds h b
        simp only [e, Res.ok_bind]
        exact ih s' (xs ++ b) c' st' h'
      | eof => exact ⟨st, c, rfl, h⟩
      | err => exact ⟨st, c, rfl, h⟩

/-- Before the file has been read to the end no more bytes are passed than it has. -/
theorem sumLoop_length (fuel : Nat) : ∀ (s : Stream) (xs ys : Bytes) (eof : Bool), File.sumLoop fuel s xs = .ok (eof, ys) → ys.length ≤ xs.length + s.rest.length := by
  induction fuel with
  | zero => intro s xs ys eof h; cases h
  | succ fuel ih =>
    intro s xs ys eof h
    rw [File.sumLoop] at h
    cases hr : s.read File.hugeLen with
    | mk x s' =>
      rw [hr] at h
      cases x with
      | data b =>
        obtain ⟨h1, -, -⟩ := File.read_data File.hugeLen_pos hr
        have := ih s' (xs ++ b) ys eof h
        rw [h1]
        simp only [List.length_append] at this ⊢
        omega
      | eof =>
        simp only [Res.ok.injEq, Prod.mk.injEq] at h
        rw [← h.2]; omega
      | err =>
        simp only [Res.ok.injEq, Prod.mk.injEq] at h
        rw [← h.2]; omega

theorem sumBig_eq (junk : Bytes) (hj : junk.length = 256) (fuel : Nat) (f : OnDisk) (hf : f.bytes.length < 2 ^ 64) : sumBig junk fuel f = File.checksumBig hash fuel f := by
  unfold sumBig File.checksumBig
  split
  · have := readLoop_spec fuel f.stream [] 0 (reset junk) (holds_reset hj)
    cases hs : File.sumLoop fuel f.stream [] with
    | ub => rw [hs] at this; simp only at this; rw [this]; simp only [Res.ub_bind]
    | div => rw [hs] at this; simp only at this; rw [this]; simp only [Res.div_bind]
    | ok p =>
      obtain ⟨eof, ys⟩ := p
      rw [hs] at this
      obtain ⟨st', c', e, h⟩ := this
      rw [e]
      simp only [Res.ok_bind]
      have hl := sumLoop_length fuel f.stream [] ys eof hs
      rw [List.length_nil, Nat.zero_add] at hl
      have hl' : ys.length < 2 ^ 64 := Nat.lt_of_le_of_lt hl hf
      cases eof with
      | true => simp only [if_true, digest_holds h hl', xxh128_hash, Res.ok_bind]
      | false => simp
  · rfl

/-- **C111, part.**  The digest of a file, as it is computed with the functions of the library, is the one that the model of `checksum_file` takes from a function of all the bytes: whether the file
is mapped or read, whatever sizes the reads return and whichever of them fail. -/
theorem file_digest (junk : Bytes) (hj : junk.length = 256) (fuel : Nat) (f : OnDisk) (size excess : Nat) (hf : f.bytes.length < 2 ^ 64) :
    sumFile junk fuel f size excess = File.checksum hash fuel f size excess := by
  unfold sumFile File.checksum sumSmall File.checksumSmall
  simp only [sumBig_eq junk hj fuel f hf, xxh128_hash, Res.ok_bind]

example : sumFile (List.replicate 256 9) 5 ⟨[1, 2, 3], [some 0], true, true, true⟩ 3 0 = .ok (some (hash [1, 2, 3])) := by decide +kernel

/-! ## What it means for the report (C64) -/

/-- **C112, part.**  On a disk whose candidates have at most 16 bytes, can be read and did not change, `ftwin` lists exactly the sets of identical files: nothing needs to be assumed of the digests. -/
theorem short_files_reported (disk : String → OnDisk) (excess ioFuel : Nat) (base : Report.World Hash128) (json : Bool) (cands : List FileEnt) (hl : Report.Limits base cands)
    (ho : Report.HashOrder base.hcmp) (hq : Report.Sorts base) (hsize : ∀ f ∈ cands, f.size = (disk f.path).bytes.length) (hio : ∀ f ∈ cands, f.size < ioFuel)
    (hread : ∀ f ∈ cands, (disk f.path).openOk = true ∧ (disk f.path).closeOk = true ∧ (disk f.path).sched = []) (hs : ∀ f ∈ cands, f.size ≤ 16) :
    ∃ out gs, Report.ftwin (Report.diskWorld disk hash excess ioFuel base) json cands = .ok out ∧ out.groups = some gs ∧
      Report.Exact (fun f => (disk f.path).bytes) cands (gs.map (·.files)) := by
  refine Report.ftwin_reports_identical_files_partial disk hash excess ioFuel base json cands hl ho hq hsize hio hread ?_
  intro f hf g hg e h
  have h1 := hsize f hf
  have h2 := hsize g hg
  have h3 := hs f hf
  exact short_digest_exact (by omega) (by omega) (by rw [xxh128_hash, xxh128_hash, h])

/-- The contents of the three files: two equal ones and one more with the same digest. -/
def clash (f : FileEnt) : Bytes :=
  if f.mtime = 21 then le64 k0 ++ (le64 (k1 + 1) ++ List.replicate 16 0) else le64 (k0 + 1) ++ (le64 k1 ++ List.replicate 16 0)

/-- The digest as a number. -/
def hashNat (m : Bytes) : Nat := (hash m).lo.toNat + 2 ^ 64 * (hash m).hi.toNat

/-- **C64 is false of the digest that is used.**  Two equal files of 32 bytes and a third one of 32 bytes with their digest: all can be read, comparing decides equality, and the report dereferences
NULL. -/
theorem real_collision_crashes :
    let w := Report.natWorld (fun f => some (hashNat (clash f))) (Report.contentCmp clash)
    let cands := [Report.exFile 11 32, Report.exFile 12 32, Report.exFile 21 32]
    Report.Limits w cands ∧ Report.HashOrder w.hcmp ∧ Report.Sorts w ∧ Report.Readable w cands clash hashNat ∧ Report.ftwin w false cands = .ub ∧ Report.ftwin w true cands = .ub := by
  have hl : Report.Limits (Report.natWorld (fun f => some (hashNat (clash f))) (Report.contentCmp clash)) [Report.exFile 11 32, Report.exFile 12 32, Report.exFile 21 32] :=
    Report.natWorld_limits _ _ _ [32] (by decide) (by decide) (by decide)
  refine ⟨hl, Report.natWorld_order _ _, Report.natWorld_sorts _ _, ⟨by decide +kernel, fun _ _ => rfl, ?_⟩, ?_, ?_⟩
  · intro f hf g hg _ r0
    refine ⟨_, rfl, ?_⟩
    by_cases h : clash f = clash g <;> simp [h]
  · exact Report.ub_eval [Report.exFile 11 32, Report.exFile 21 32, Report.exFile 12 32] [32] hl (by decide +kernel) (by decide) (by decide) (by decide) (by decide +kernel)
  · exact Report.ub_eval [Report.exFile 11 32, Report.exFile 21 32, Report.exFile 12 32] [32] hl (by decide +kernel) (by decide) (by decide) (by decide) (by decide +kernel)

end Verif.Xxh3
