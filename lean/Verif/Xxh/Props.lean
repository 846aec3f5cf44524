import Verif.Xxh.Lemmas
import Verif.Report.Disk

/-!
# Which sizes and groups can be kept in the tables (C90, C91)

`napr_hash_set` never returns if eight elements have the same hash value (C06).  For the hash function the program uses, XXH32 of the eight bytes of a size
or of the four bytes of a group, this says exactly which files and groups are safe.
-/

namespace Verif.Xxh

open Verif.Report (FileEnt World Limits SizesOk Pop Conf cnt addFile conf0 ftwin sizeFns present)

/-- **C91, part.**  No two groups have the same hash value. -/
theorem gidHash_inj {g g' : Nat} (h : g < 2 ^ 32) (h' : g' < 2 ^ 32) (e : gidHash g = gidHash g') : g = g' := by
  unfold gidHash at e
  rw [UInt32.ofBitVec.injEq, hash4, hash4] at e
  have e := congrArg BitVec.toNat (process4_word (avalanche_inj e))
  rwa [BitVec.toNat_ofNat, BitVec.toNat_ofNat, Nat.mod_eq_of_lt h, Nat.mod_eq_of_lt h'] at e

/-- Two sizes with the same hash value differ in the upper half. -/
theorem sizeHash_upper {s t : Nat} (hs : s < 2 ^ 64) (ht : t < 2 ^ 64) (e : sizeHash s = sizeHash t) (hu : s / 2 ^ 32 = t / 2 ^ 32) : s = t := by
  unfold sizeHash at e
  rw [UInt32.ofBitVec.injEq, hash8, hash8, hu] at e
  have e := congrArg BitVec.toNat (process4_word (process4_state (avalanche_inj e)))
  simp only [BitVec.toNat_ofNat] at e
  omega

/-- **C90, part.**  Below `k` times 4 GiB at most `k` sizes share a hash value. -/
theorem few_sizes_collide (k : Nat) (hk : k ≤ 2 ^ 32) (v : UInt32) (l : List Nat) (hn : l.Nodup) (h : ∀ s ∈ l, s < k * 2 ^ 32 ∧ sizeHash s = v) : l.length ≤ k := by
  have hm : (l.map (· / 2 ^ 32)).Nodup := by
    rw [List.nodup_iff_pairwise_ne, List.pairwise_map]
    refine List.Pairwise.imp_of_mem ?_ (List.nodup_iff_pairwise_ne.mp hn)
    intro a b ha hb hne hu
    have h1 := h a ha
    have h2 := h b hb
    have hm : k * 2 ^ 32 ≤ 2 ^ 32 * 2 ^ 32 := Nat.mul_le_mul_right _ hk
    exact hne (sizeHash_upper (by omega) (by omega) (h1.2.trans h2.2.symm) hu)
  have := Report.nodup_length_le _ (List.range k) hm (by
    intro x hx
    obtain ⟨s, hs, rfl⟩ := List.mem_map.mp hx
    rw [List.mem_range]
    exact Nat.div_lt_of_lt_mul (by have := (h s hs).1; omega))
  simpa using this

/-- **C90, part.**  The table of sizes can be built for all files smaller than 28 GiB: the limits the theorems about reports ask for are met by every set of such
files. -/
theorem limits_of_small {η : Type} (w : World η) (hw : w.sizeHash = sizeHash) (cands : List FileEnt) (hl : cands.length ≤ 2 ^ 31) (hf : cands.length + 33 ≤ w.fuel)
    (hs : ∀ f ∈ cands, f.size < 28 * 2 ^ 30) : Limits w cands where
  len := hl
  fuel := hf
  sizes := by
    intro v l hn h
    have := few_sizes_collide 7 (by decide) v l hn (by
      intro s hsm
      obtain ⟨⟨f, hfm, rfl⟩, h2⟩ := h s hsm
      rw [hw] at h2
      exact ⟨by have := hs f hfm; omega, h2⟩)
    omega

/-- The size with a given upper half and the hash value of `s`. -/
def partner (s hi : Nat) : Nat :=
  (solve (0 + p5 + 8#32) (process4 (0 + p5 + 8#32) (BitVec.ofNat 32 s) + BitVec.ofNat 32 (s / 2 ^ 32) * p3 - BitVec.ofNat 32 hi * p3)).toNat + 2 ^ 32 * hi

theorem partner_upper (s hi : Nat) : partner s hi / 2 ^ 32 = hi := by
  unfold partner
  have := (solve (0 + p5 + 8#32) (process4 (0 + p5 + 8#32) (BitVec.ofNat 32 s) + BitVec.ofNat 32 (s / 2 ^ 32) * p3 - BitVec.ofNat 32 hi * p3)).isLt
  omega

theorem partner_hash (s hi : Nat) : sizeHash (partner s hi) = sizeHash s := by
  have hu := partner_upper s hi
  unfold sizeHash
  rw [hash8, hash8, hu]
  have hlo : BitVec.ofNat 32 (partner s hi) =
      solve (0 + p5 + 8#32) (process4 (0 + p5 + 8#32) (BitVec.ofNat 32 s) + BitVec.ofNat 32 (s / 2 ^ 32) * p3 - BitVec.ofNat 32 hi * p3) := by
    unfold partner
    apply BitVec.eq_of_toNat_eq
    rw [BitVec.toNat_ofNat, Nat.add_mul_mod_self_left, Nat.mod_eq_of_lt (BitVec.isLt _)]
  have key : ∀ a b c : W, process4 (a + b * p3 - c * p3) c = process4 a b := by
    intro a b c
    unfold process4
    rw [BitVec.sub_add_cancel]
  rw [hlo, process4_solve, key]

/-- For every size there are seven others, all below 32 GiB or equal to it, with its hash value: eight sizes in all. -/
theorem eight_sizes (s : Nat) : ∃ l : List Nat, l.length = 8 ∧ l.Nodup ∧ ∀ t ∈ l, t < 32 * 2 ^ 30 ∧ sizeHash t = sizeHash s := by
  refine ⟨(List.range 8).map (partner s), by simp, ?_, ?_⟩
  · rw [List.nodup_iff_pairwise_ne, List.pairwise_map]
    refine List.Pairwise.imp_of_mem ?_ (List.nodup_iff_pairwise_ne.mp List.nodup_range)
    intro a b _ _ hne e
    apply hne
    rw [← partner_upper s a, e, partner_upper]
  · intro t ht
    obtain ⟨hi, hhi, rfl⟩ := List.mem_map.mp ht
    rw [List.mem_range] at hhi
    have := partner_upper s hi
    exact ⟨by omega, partner_hash s hi⟩

/-! ## Eight such sizes -/

variable {η : Type}

/-- A well-formed table never holds as many elements of one hash value as a bucket has places. -/
theorem inv_sameHash {α κ : Type} [DecidableEq κ] {f : Hash.Fns α κ} {t : Hash.Table α} (h : Hash.Inv f t) (v : UInt32) : Hash.sameHash f (Hash.elems t) v < t.ffactor := by
  obtain ⟨l, hl⟩ := Hash.bucket_exists h.placed v
  have hroom := h.room l (List.mem_of_getElem? hl)
  have : (Hash.elems t).filter (fun y => decide (f.hash (f.key y) = v)) = l.filter (fun y => decide (f.hash (f.key y) = v)) := by
    apply Hash.flatten_filter_single _ _ _ _ hl
    intro b l' hb hne
    rw [List.filter_eq_nil_iff]
    intro a hal hk
    have hk : f.hash (f.key a) = v := by simpa using hk
    exact hne (by rw [← hk]; exact (h.placed.2 b l' hb a hal).symm)
  unfold Hash.sameHash
  rw [List.countP_eq_length_filter, this]
  have := List.length_filter_le (fun y => decide (f.hash (f.key y) = v)) l
  omega

theorem pop_sizesOk {w : World η} {fs : List FileEnt} {c : Conf η} (h : Pop w fs c) : SizesOk w fs := by
  intro v l hn hl
  have h1 := inv_sameHash h.sizes.inv v
  rw [h.ff] at h1
  unfold Hash.sameHash at h1
  rw [List.countP_eq_length_filter] at h1
  have := Report.nodup_length_le l ((Hash.elems c.sizes).filter (fun y => decide ((sizeFns w).hash ((sizeFns w).key y) = v))) hn (by
    intro s hs
    obtain ⟨⟨f, hf, rfl⟩, h2⟩ := hl s hs
    rw [List.mem_filter, Report.abs_mem h.sizes]
    refine ⟨?_, decide_eq_true h2⟩
    unfold present
    rw [if_pos (Report.cnt_pos.mpr ⟨f, hf, rfl⟩)])
  omega

theorem addFile_div {w : World η} {fs : List FileEnt} {c : Conf η} (h : Pop w fs c) (f : FileEnt) (hs : ¬ SizesOk w (f :: fs)) (hl : fs.length < 2 ^ 31)
    (hf : fs.length + 33 ≤ w.fuel) : addFile w c f = .div := by
  obtain ⟨t, H, ho, hp⟩ := h.heap
  have htl := hp.length_eq
  obtain ⟨hp', t', e1, -⟩ := Heap.insert_spec Report.fileCmp H f (by omega) (fuel := w.fuel) (by omega)
  have hsearch := Hash.search_abs h.sizes f.size
  have hok := pop_sizesOk h
  have hc : ¬ 0 < cnt fs f.size := by
    intro hc
    apply hs
    intro v l hn hl
    refine hok v l hn (fun s hsm => ?_)
    obtain ⟨⟨g, hg, e⟩, h2⟩ := hl s hsm
    refine ⟨?_, h2⟩
    rcases List.mem_cons.mp hg with rfl | hg
    · obtain ⟨g', hg', e'⟩ := Report.cnt_pos.mp hc
      exact ⟨g', hg', e'.trans e⟩
    · exact ⟨g, hg, e⟩
  have hm : present (fun k => 0 < cnt fs k) f.size = none := by simp [present, hc]
  unfold addFile
  simp only [e1, Res.ok_bind, hsearch, hm]
  have hbig : ∃ v, c.sizes.ffactor ≤ Hash.sameHash (sizeFns w) (f.size :: Hash.elems c.sizes) v := by
    unfold SizesOk at hs
    simp only [Classical.not_forall] at hs
    obtain ⟨v, l, hn, hl, hlen⟩ := hs
    refine ⟨v, ?_⟩
    rw [h.ff]
    unfold Hash.sameHash
    rw [List.countP_eq_length_filter]
    have := Report.nodup_length_le l ((f.size :: Hash.elems c.sizes).filter (fun y => decide ((sizeFns w).hash ((sizeFns w).key y) = v))) hn (by
      intro s hsm
      obtain ⟨⟨g, hg, rfl⟩, h2⟩ := hl s hsm
      rw [List.mem_filter]
      refine ⟨?_, decide_eq_true h2⟩
      rcases List.mem_cons.mp hg with rfl | hg
      · exact List.mem_cons_self ..
      · refine List.mem_cons_of_mem _ ?_
        rw [Report.abs_mem h.sizes]
        unfold present
        rw [if_pos (Report.cnt_pos.mpr ⟨g, hg, rfl⟩)])
    omega
  have e3 : Hash.set (sizeFns w) w.fuel c.sizes f.size (w.sizeHash f.size) = .div :=
    (Hash.hash_set_terminates_iff (sizeFns w) c.sizes f.size h.sizes.inv).2.2 hbig w.fuel
  rw [e3]; rfl

theorem populate_div (w : World η) : ∀ (fs done : List FileEnt) (c : Conf η), Pop w done c → ¬ SizesOk w (fs.reverse ++ done) →
    fs.length + done.length ≤ 2 ^ 31 → fs.length + done.length + 33 ≤ w.fuel → fs.foldlM (addFile w) c = .div := by
  intro fs
  induction fs with
  | nil => intro done c h hs _ _; exact absurd (pop_sizesOk h) hs
  | cons f fs ih =>
    intro done c h hs hl hf
    simp only [List.length_cons] at hl hf
    by_cases hok : SizesOk w (f :: done)
    · obtain ⟨c1, e1, h1⟩ := Report.addFile_pop h f hok (by omega) (by omega)
      have er : (f :: fs).reverse ++ done = fs.reverse ++ (f :: done) := by simp
      rw [er] at hs
      rw [List.foldlM_cons, e1]
      exact ih (f :: done) c1 h1 hs (by simp; omega) (by simp; omega)
    · rw [List.foldlM_cons, addFile_div h f hok (by omega) (by omega)]
      rfl

/-- **C90.**  With any hash function for sizes, a run on at most 2^31 files gets through the traversal if and only if no eight of their sizes have the same hash
value; otherwise it never ends, however long it runs. -/
theorem run_hangs_iff [DecidableEq η] (w : World η) (json : Bool) (cands : List FileEnt) (hl : cands.length ≤ 2 ^ 31) (hf : cands.length + 33 ≤ w.fuel) :
    ((∃ c, cands.foldlM (addFile w) (conf0 η) = .ok c) ↔ Limits w cands) ∧ (¬ Limits w cands → ftwin w json cands = .div) := by
  have hrev : SizesOk w (cands.reverse ++ []) ↔ Limits w cands := by
    constructor
    · intro h; exact ⟨hl, hf, by have := h.mono (a := cands) (by intro f; simp); exact this⟩
    · intro h; have : SizesOk w cands := h.sizes; exact this.mono (by intro f; simp)
  have hdiv : ¬ Limits w cands → cands.foldlM (addFile w) (conf0 η) = .div := fun h =>
    populate_div w cands [] (conf0 η) (Report.conf0_pop w) (fun h' => h (hrev.mp h')) (by simpa using hl) (by simpa using hf)
  refine ⟨⟨?_, ?_⟩, ?_⟩
  · rintro ⟨c, e⟩
    apply Classical.byContradiction
    intro h
    rw [hdiv h] at e; cases e
  · intro h
    obtain ⟨c, e, -⟩ := Report.populate w cands [] (conf0 η) (Report.conf0_pop w) (hrev.mpr h) (by simpa using hl) (by simpa using hf)
    exact ⟨c, e⟩
  · intro h
    unfold ftwin
    rw [hdiv h]; rfl

/-- **C90 is false.**  There are eight sizes below 32 GiB such that the program never ends if it finds a file of each of them, whatever the files hold and whatever other
files there are. -/
theorem eight_files_hang : ∃ l : List Nat, l.length = 8 ∧ (∀ s ∈ l, s < 32 * 2 ^ 30) ∧
    ∀ {η : Type} [DecidableEq η] (w : World η) (json : Bool) (cands : List FileEnt), w.sizeHash = sizeHash → (∀ s ∈ l, ∃ f ∈ cands, f.size = s) →
      cands.length ≤ 2 ^ 31 → cands.length + 33 ≤ w.fuel → ftwin w json cands = .div := by
  obtain ⟨l, h1, h2, h3⟩ := eight_sizes 1
  refine ⟨l, h1, fun s hs => (h3 s hs).1, ?_⟩
  intro η _ w json cands hw hc hl hf
  refine (run_hangs_iff w json cands hl hf).2 (fun hlim => ?_)
  have := hlim.sizes (sizeHash 1) l h2 (fun s hs => ⟨hc s hs, by rw [hw]; exact (h3 s hs).2⟩)
  omega

/-- The eight sizes that go with a file of one byte. -/
example : (List.range 8).map (partner 1) = [1, 6117988829, 9406995108, 13703967872, 21287941447, 25584914211, 27407935743, 30696942022] := by decide +kernel

/-- Seven of them are no problem. -/
example : Limits { Report.exWorld with sizeHash := sizeHash } [⟨"a", 1, 0, false⟩, ⟨"b", 6117988829, 0, false⟩, ⟨"c", 9406995108, 0, false⟩, ⟨"d", 13703967872, 0, false⟩,
    ⟨"e", 21287941447, 0, false⟩, ⟨"f", 25584914211, 0, false⟩, ⟨"g", 27407935743, 0, false⟩] :=
  limits_of_small _ rfl _ (by decide) (by decide) (by decide)


end Verif.Xxh
