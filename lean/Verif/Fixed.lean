import Verif.Output.JsonTextLemmas
import Verif.Tests
import Verif.Traverse.Links
import Verif.Db.Handle

/-!
# Small definitions against the expressions of the source

Arithmetic and constants that the other theorems use only in part (a parent of position 0, a flag
bit of a damaged page, a blank that no pattern happens to have) are compared here with the C
expressions themselves, on machine words.
-/

namespace Verif.Fixed

/-- napr_heap.c L33-36: `(position - 1) >> 1` on 32-bit words. -/
theorem heap_parent (p : Nat) (h : p < 2 ^ 32) : Heap.parent p = ((BitVec.ofNat 32 p - 1#32) >>> 1).toNat := by
  unfold Heap.parent
  rw [BitVec.toNat_ushiftRight, BitVec.toNat_sub, Nat.shiftRight_eq_div_pow]
  simp only [BitVec.toNat_ofNat]
  split <;> omega

/-- napr_heap.c L38-41: `(position << 1) + 1`. -/
theorem heap_left (p : Nat) : Heap.left p = (BitVec.ofNat 32 p * 2#32 + 1#32).toNat := by
  unfold Heap.left Heap.u32
  rw [BitVec.toNat_add, BitVec.toNat_mul]
  simp only [BitVec.toNat_ofNat]
  omega

/-- napr_heap.c L43-46: `(position + 1) << 1`. -/
theorem heap_right (p : Nat) : Heap.right p = ((BitVec.ofNat 32 p + 1#32) * 2#32).toNat := by
  unfold Heap.right Heap.u32
  rw [BitVec.toNat_mul, BitVec.toNat_add]
  simp only [BitVec.toNat_ofNat]
  omega

/-- A new heap has room for 256 elements before it is enlarged; a write is defined exactly within the cells. -/
theorem heap_room (α : Type) (cells : List (Option α)) (i : Nat) (v : Option α) :
    (Heap.make α).max = 256 ∧ (Heap.make α).cells.length = 256 ∧ ((∃ c, Heap.wr cells i v = .ok c) ↔ i < cells.length) := by
  refine ⟨rfl, List.length_replicate, ?_⟩
  unfold Heap.wr
  split
  · exact ⟨fun _ => by assumption, fun _ => ⟨_, rfl⟩⟩
  · exact ⟨fun h => (by obtain ⟨_, h⟩ := h; cases h), fun h => by contradiction⟩

/-- napr_db_internal.h L141-144: the tests `flags & P_BRANCH` and `flags & P_LEAF`, for every value of the field. -/
theorem page_kinds (p : Page.Page) : (Page.isBranch p = true ↔ Page.flags p &&& 1 ≠ 0) ∧ (Page.isLeaf p = true ↔ Page.flags p &&& 2 ≠ 0) := by
  unfold Page.isBranch Page.isLeaf
  constructor
  · rw [Nat.and_one_is_mod, beq_iff_eq]
    omega
  · have h : Page.flags p &&& 2 = 2 * (Page.flags p / 2 % 2) := by
      have h0 : (Page.flags p &&& 2) % 2 = 0 := by
        have := @Nat.and_mod_two_pow (Page.flags p) 2 1
        simpa using this
      have h1 : (Page.flags p &&& 2) / 2 = Page.flags p / 2 % 2 := by
        rw [Nat.and_div_two, show 2 / 2 = 1 from rfl, Nat.and_one_is_mod]
      omega
    rw [h, beq_iff_eq]
    omega

/-- `isspace` in the C locale: the blank and the codes 9 to 13. -/
theorem ignore_space (c : Char) : Ignore.isSpace c = true ↔ c.toNat = 32 ∨ (9 ≤ c.toNat ∧ c.toNat ≤ 13) := by
  unfold Ignore.isSpace
  have hc : ∀ d : Char, (c == d) = true ↔ c.toNat = d.toNat := by
    intro d
    rw [beq_iff_eq]
    exact ⟨fun h => by rw [h], fun h => Char.ext (UInt32.toNat_inj.1 h)⟩
  simp only [Bool.or_eq_true, hc]
  have h1 : ' '.toNat = 32 := rfl
  have h2 : '\t'.toNat = 9 := rfl
  have h3 : '\n'.toNat = 10 := rfl
  have h4 : '\x0b'.toNat = 11 := rfl
  have h5 : '\x0c'.toNat = 12 := rfl
  have h6 : '\r'.toNat = 13 := rfl
  rw [h1, h2, h3, h4, h5, h6]
  omega

/-- ft_ignore.c L87-93: a pattern that is nothing but marks is for directories only if it ends in a slash. -/
theorem marks_only : ((Ignore.handleMarks ['/']).1.dirOnly, (Ignore.handleMarks ['!']).1.dirOnly, (Ignore.handleMarks ['!', '/']).1.dirOnly,
    (Ignore.handleMarks ['!', ' ']).1.dirOnly, (Ignore.handleMarks ['/', ' ']).1.dirOnly) = (true, false, true, false, false) := by decide +kernel

/-- ft_config.c L223-272: the sizes of a new configuration. -/
theorem config_sizes (cores : Nat) (ig : Hash.Table (List Char)) :
    let c := Config.create cores ig
    c.minsize = 0 ∧ c.maxsize = 0 ∧ c.excess = 52428800 ∧ c.threshold = 1 ∧ c.sep = '\n' ∧ c.numThreads = cores :=
  ⟨rfl, rfl, rfl, rfl, rfl, rfl⟩

/-- `strtol` stops at the ends of the type. -/
theorem strtol_ends : (Config.strtol "-9223372036854775809 ".toList, Config.strtol "9223372036854775808x".toList, Config.strtol "-9223372036854775807".toList) =
    ((-9223372036854775808, [' ']), (9223372036854775807, ['x']), (-9223372036854775807, [])) := by decide +kernel

/-- napr_db.c L40: the reader table of a new environment is zeroed memory (`apr_pcalloc`). -/
theorem readers_zeroed {n : Nat} {env : Db.Env} (h : Db.envCreate n = .ok env) : ∀ s ∈ env.readers, s.pid = 0 ∧ s.tid = 0 ∧ s.txnid = 0 := by
  unfold Db.envCreate at h
  split at h
  · cases h
  · cases h
    intro s hs
    rw [List.eq_of_mem_replicate hs]
    exact ⟨rfl, rfl, rfl⟩

/-- napr_db.c L703-736: the file is made longer exactly when the last page has moved beyond its end. -/
theorem extends_iff (env : Db.Env) (t : Db.Txn) :
    Db.extendActs env t ≠ [] ↔ Db.metaLast env.liveMeta < t.newLast ∧ env.filePages ≤ t.newLast := by
  unfold Db.extendActs
  split
  · split <;> simp <;> omega
  · simp; omega

/-- The last field of an empty page header. -/
theorem empty_rest (leaf : Bool) (no : Nat) : Page.u16 (Page.emptyPage leaf no) 16 = 0 := by
  unfold Page.emptyPage
  simp [Page.u16_put16]

/-- A directory with an entry `l` that is a link, through `more` further links, to the directory itself. -/
def loopGraph (more : Nat) : Traverse.Graph Unit where
  info _ := { kind := .dir }
  ents _ := [(['l'], .link (some ()) more)]
  listable _ := true
  rules _ := none

/-- Exactly `limit` links may be followed on the way, and one more may stand at the end of a path that is only looked at. -/
theorem links_followed (limit more : Nat) : ∀ n k, k ≤ limit →
    ((loopGraph more).walk limit ((), k) (List.replicate n ['l']) = if k + n * (more + 1) ≤ limit then some ((), k + n * (more + 1)) else none) ∧
    ((loopGraph more).lwalk limit ((), k) (List.replicate (n + 1) ['l']) = if k + n * (more + 1) ≤ limit then some { kind := .lnk } else none)
  | 0, k, hk => by simp [Traverse.Graph.walk, Traverse.Graph.lwalk, loopGraph, hk]
  | n + 1, k, hk => by
    have hm : k + (n + 1) * (more + 1) = (k + more + 1) + n * (more + 1) := by rw [Nat.add_mul]; omega
    rw [hm]
    by_cases h : k + more + 1 ≤ limit
    · have ih := links_followed limit more n (k + more + 1) h
      constructor
      · rw [← ih.1]
        simp [List.replicate_succ, Traverse.Graph.walk, loopGraph, Traverse.Target.goes, h]
      · rw [← ih.2]
        conv => lhs; rw [List.replicate_succ, List.replicate_succ, Traverse.Graph.lwalk]
        conv => rhs; rw [List.replicate_succ]
        simp [loopGraph, Traverse.Target.goes, h]
    · have hf : ¬ (k + more + 1) + n * (more + 1) ≤ limit := by omega
      rw [if_neg hf, if_neg hf]
      constructor
      · simp [List.replicate_succ, Traverse.Graph.walk, loopGraph, Traverse.Target.goes, h]
      · rw [List.replicate_succ, List.replicate_succ, Traverse.Graph.lwalk]
        simp [loopGraph, Traverse.Target.goes, h]

/-- The file system made from it counts from the argument on. -/
def loopMount (limit : Nat) : Traverse.Mount Unit := { graph := loopGraph 0, limit := limit, pathMax := 4096, arg := ['d'], top := () }

/-- The kind found at a path. -/
def kindAt (limit : Nat) (follow : Bool) (p : String) : Option Traverse.Kind := ((loopMount limit).fs.stat follow p.toList).map (·.kind)

theorem links_counted : kindAt 2 true "d/l/l" = some .dir ∧ kindAt 2 true "d/l/l/l" = none ∧ kindAt 2 false "d/l/l/l" = some .lnk ∧
    kindAt 2 false "d/l/l/l/l" = none ∧ kindAt 0 false "d" = some .dir := by decide +kernel

#guard Output.paddedInt 4 (-5) == "-005".toList
#guard Output.paddedInt 2 (-12) == "-12".toList
#guard Output.paddedInt 4 2026 == "2026".toList
#guard Xxh.gidHash 0 == 0x08D6D969
#guard Xxh.sizeHash 0 != Xxh.gidHash 0

/-! ## A key that lies in the page itself (napr_db.c L1030-1037, napr_db_tree.c L440-449) -/

/-- The copy of the key is defined exactly if no byte of the key is also a byte of the place it is copied to.  Two ranges that only
touch are no overlap. -/
theorem filedKey_defined (p : Page.Page) (off ks vs : Nat) (hs : 4 + ks + vs ≤ Page.upper p) :
    (∃ k, Db.filedKey p off ks vs = .ok k) ↔
      ∀ j, off ≤ j → j < off + ks → ¬ (Page.upper p - (ks + vs) ≤ j ∧ j < Page.upper p - vs) := by
  have hu : Page.upper p < 65536 := Page.u16_lt p 14
  have ho : (Page.upper p + 65536 - (4 + ks + vs) % 65536) % 65536 = Page.upper p - (4 + ks + vs) := by omega
  unfold Db.filedKey
  simp only [ho]
  constructor
  · rintro ⟨k, h⟩ j h1 h2 ⟨h3, h4⟩
    rw [if_pos (by omega)] at h; cases h
  · intro h
    by_cases hc : off < Page.upper p - (4 + ks + vs) + 4 + ks ∧ Page.upper p - (4 + ks + vs) + 4 < off + ks
    · exfalso
      by_cases h1 : off ≤ Page.upper p - (ks + vs)
      · exact h (Page.upper p - (ks + vs)) h1 (by omega) ⟨Nat.le_refl _, by omega⟩
      · exact h off (Nat.le_refl _) (by omega) ⟨by omega, by omega⟩
    · rw [if_neg hc]; exact ⟨_, rfl⟩

/-! ## Where a seek that fails leaves the cursor (napr_db_cursor.c L104, L118-121) -/

/-- A seek that stops at a page that is neither leaf nor branch does not mark the cursor as at its end. -/
theorem failed_seek_not_eof {env : Db.Env} {t : Db.Txn} {fuel : Nat} {op : Db.Seek} {st : Db.Status} {c : Db.Cursor} (h : Db.seek env t fuel op = .ok (st, c))
    (h1 : st ≠ .success) (h2 : st ≠ .notfound) : c.eof = false := by
  unfold Db.seek at h
  split at h
  · cases h; exact absurd rfl h2
  · obtain ⟨r, -, h⟩ := Res.bind_eq_ok.1 h
    split at h
    · split at h
      · cases h
      · obtain ⟨j, -, h⟩ := Res.bind_eq_ok.1 h
        cases j with
        | none => cases h; exact absurd rfl h2
        | some j =>
          simp only [] at h
          split at h
          · cases h; exact absurd rfl h2
          · cases h; exact absurd rfl h1
    · cases h; rfl

/-- napr_db.c L72-84: exactly the size 0 is refused, and then nothing changes. -/
theorem handle_mapsize (h : Db.Handle) (n : Nat) :
    ((Db.setMapsize h n).1 = false ↔ n = 0) ∧ (Db.setMapsize h n).2.mapsize = (if n = 0 then h.mapsize else n) ∧ (Db.setMapsize h n).2.file = h.file ∧ (Db.setMapsize h n).2.map = h.map ∧
      (Db.setMapsize h n).2.db = h.db := by
  unfold Db.setMapsize
  split <;> simp_all

/-- Two handles on one file: a page or a length read through one is that read through the other, the rest is their own. -/
theorem handles_share (o e : Db.Env) : (Db.onFile o e).file = e.file ∧ (Db.onFile o e).filePages = e.filePages ∧ (Db.onFile o e).live = o.live ∧ (Db.onFile o e).locked = o.locked ∧
    (Db.onFile o e).readers = o.readers ∧ (Db.onFile o e).mapPages = o.mapPages := ⟨rfl, rfl, rfl, rfl, rfl, rfl⟩

/-- Exactly the UTF-8 encodings of code points are taken for one: no longer forms, no surrogates, nothing above U+10FFFF. -/
theorem nextCode_exact (s : List Nat) (n : Nat) (r : List Nat) :
    Output.nextCode s = some (n, r) ↔ (n < 0x110000 ∧ ¬ (0xD800 ≤ n ∧ n ≤ 0xDFFF)) ∧ s = Output.utf8Encode n ++ r := by
  constructor
  · intro h
    unfold Output.nextCode at h
    split at h
    · cases h
    · rename_i a s
      split at h
      · obtain ⟨h1, rfl⟩ := Prod.mk.inj (Option.some.inj h)
        refine ⟨by omega, ?_⟩
        unfold Output.utf8Encode; rw [if_pos (by omega), ← h1]; rfl
      · split at h
        · split at h
          · split at h
            · obtain ⟨h1, rfl⟩ := Prod.mk.inj (Option.some.inj h)
              refine ⟨by omega, ?_⟩
              unfold Output.utf8Encode
              rw [if_neg (by omega), if_pos (by omega)]
              simp only [List.cons_append, List.nil_append, List.cons.injEq, and_true]
              omega
            · cases h
          · cases h
        · split at h
          · split at h
            · simp only [] at h
              split at h
              · obtain ⟨h1, rfl⟩ := Prod.mk.inj (Option.some.inj h)
                refine ⟨by omega, ?_⟩
                unfold Output.utf8Encode
                rw [if_neg (by omega), if_neg (by omega), if_pos (by omega)]
                simp only [List.cons_append, List.nil_append, List.cons.injEq, and_true]
                omega
              · cases h
            · cases h
          · split at h
            · split at h
              · simp only [] at h
                split at h
                · obtain ⟨h1, rfl⟩ := Prod.mk.inj (Option.some.inj h)
                  refine ⟨by omega, ?_⟩
                  unfold Output.utf8Encode
                  rw [if_neg (by omega), if_neg (by omega), if_neg (by omega)]
                  simp only [List.cons_append, List.nil_append, List.cons.injEq, and_true]
                  omega
                · cases h
              · cases h
            · cases h
  · rintro ⟨h, rfl⟩
    unfold Output.utf8Encode
    split
    · simp only [List.cons_append, List.nil_append]
      unfold Output.nextCode
      simp only []
      rw [if_pos (by assumption)]
    · split
      · simp only [List.cons_append, List.nil_append]
        unfold Output.nextCode
        simp only []
        rw [if_neg (by omega), if_pos (by omega)]
        rw [if_pos (by omega)]
        simp only [Option.some.injEq, Prod.mk.injEq, and_true]; omega
      · split
        · simp only [List.cons_append, List.nil_append]
          unfold Output.nextCode
          simp only []
          rw [if_neg (by omega), if_neg (by omega), if_pos (by omega)]
          rw [if_pos (by omega)]
          simp only [Option.some.injEq, Prod.mk.injEq, and_true]; omega
        · simp only [List.cons_append, List.nil_append]
          unfold Output.nextCode
          simp only []
          rw [if_neg (by omega), if_neg (by omega), if_neg (by omega), if_pos (by omega)]
          rw [if_pos (by omega)]
          simp only [Option.some.injEq, Prod.mk.injEq, and_true]; omega

/-- A text is UTF-8 exactly if it is made of encodings of code points. -/
theorem utf8_exact (s : List Nat) : Output.utf8 s = true ↔ ∃ ns : List Nat, (∀ n ∈ ns, n < 0x110000 ∧ ¬ (0xD800 ≤ n ∧ n ≤ 0xDFFF)) ∧ s = ns.flatMap Output.utf8Encode := by
  constructor
  · have key : ∀ k (s : List Nat), s.length ≤ k → Output.utf8 s = true → ∃ ns : List Nat, (∀ n ∈ ns, n < 0x110000 ∧ ¬ (0xD800 ≤ n ∧ n ≤ 0xDFFF)) ∧ s = ns.flatMap Output.utf8Encode := by
      intro k
      induction k with
      | zero => intro s hs _; exact ⟨[], by simp, List.length_eq_zero_iff.1 (by omega)⟩
      | succ k ih =>
        intro s hs h
        cases s with
        | nil => exact ⟨[], by simp, rfl⟩
        | cons a s =>
          obtain ⟨n, r, -, h2, h3, h4, h5⟩ := Output.nextCode_spec h
          obtain ⟨ns, h6, h7⟩ := ih r (by simp at hs; omega) h2
          exact ⟨n :: ns, fun m hm => by rcases List.mem_cons.1 hm with rfl | hm; exact h4; exact h6 m hm, by rw [List.flatMap_cons, ← h7, h5]⟩
    exact key _ s (Nat.le_refl _)
  · rintro ⟨ns, h, rfl⟩
    induction ns with
    | nil => rfl
    | cons n ns ih =>
      rw [List.flatMap_cons]
      have hn := h n List.mem_cons_self
      have ih := ih fun m hm => h m (List.mem_cons_of_mem _ hm)
      revert ih
      generalize List.flatMap Output.utf8Encode ns = r
      intro ih
      unfold Output.utf8Encode
      split
      · simp only [List.cons_append, List.nil_append]
        unfold Output.utf8
        rw [if_pos (by assumption)]; exact ih
      · split
        · simp only [List.cons_append, List.nil_append]
          unfold Output.utf8
          rw [if_neg (by omega), if_pos (by omega)]
          simp only [ih, Bool.and_true, decide_eq_true_eq]
          omega
        · split
          · simp only [List.cons_append, List.nil_append]
            unfold Output.utf8
            rw [if_neg (by omega), if_neg (by omega), if_pos (by omega)]
            simp only [ih, Bool.and_true, decide_eq_true_eq]
            omega
          · simp only [List.cons_append, List.nil_append]
            unfold Output.utf8
            rw [if_neg (by omega), if_neg (by omega), if_neg (by omega), if_pos (by omega)]
            simp only [ih, Bool.and_true, decide_eq_true_eq]
            omega

/-- The hexadecimal digits that a reader of JSON knows. -/
theorem hex_digits : ("0123456789abcdefABCDEF".toList.map Output.hexVal, "/:@G`g".toList.map Output.hexVal) =
    ([0, 1, 2, 3, 4, 5, 6, 7, 8, 9, 10, 11, 12, 13, 14, 15, 10, 11, 12, 13, 14, 15].map some, List.replicate 6 none) := by decide +kernel

end Verif.Fixed
