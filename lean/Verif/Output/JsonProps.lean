import Verif.Output.Json
import Verif.Output.Props

/-! # The JSON report can be read back (C82) -/

namespace Verif.Output

open Verif.Report (FileEnt Group World Outcome Limits ftwin Entry Inner)

/-! ## Numbers and times -/

theorem readNat_append (base : Nat) (a : List Char) (c : Char) : readNat base (a ++ [c]) = readNat base a * base + digitVal c := by
  simp [readNat]

theorem digitVal_digitChar : ∀ d < 16, digitVal (Nat.digitChar d) = d := by decide

theorem readNat_fixed (base : Nat) (hb : base ≤ 16) (h0 : 0 < base) : ∀ k n, n < base ^ k → readNat base (fixed base k n) = n := by
  intro k
  induction k with
  | zero => intro n h; simp [fixed, readNat] at *; omega
  | succ k ih =>
    intro n h
    rw [fixed, readNat_append, ih (n / base) (by rw [Nat.div_lt_iff_lt_mul h0]; rw [Nat.pow_succ] at h; exact h),
      digitVal_digitChar _ (Nat.lt_of_lt_of_le (Nat.mod_lt _ h0) hb)]
    rw [Nat.mul_comm]; exact Nat.div_add_mod n base

theorem fixed_length (base : Nat) : ∀ k n, (fixed base k n).length = k := by
  intro k
  induction k with
  | zero => intro n; rfl
  | succ k ih => intro n; simp [fixed, ih]

theorem foldl_digits (base : Nat) (f : Char → Nat) : ∀ (b : List Char) (x : Nat),
    b.foldl (fun n c => n * base + f c) x = x * base ^ b.length + b.foldl (fun n c => n * base + f c) 0 := by
  intro b
  induction b with
  | nil => intro x; simp
  | cons c b ih =>
    intro x
    rw [List.foldl_cons, List.foldl_cons, ih (x * base + f c), ih (0 * base + f c), List.length_cons, Nat.pow_succ']
    rw [Nat.add_mul, Nat.mul_assoc, Nat.zero_mul, Nat.zero_add, Nat.add_assoc]

theorem readNat_concat (base : Nat) (a b : List Char) : readNat base (a ++ b) = readNat base a * base ^ b.length + readNat base b := by
  unfold readNat
  rw [List.foldl_append, foldl_digits]

/-- The digest as a number. -/
def Digest.val (h : Digest) : Nat := h.high.toNat * 2 ^ 64 + h.low.toNat

theorem readNat_hexDigest (h : Digest) : readNat 16 (hexDigest h) = h.val := by
  have h1 : h.high.toNat < 16 ^ 16 := h.high.toNat_lt
  have h2 : h.low.toNat < 16 ^ 16 := h.low.toNat_lt
  unfold hexDigest padded
  rw [if_pos h1, if_pos h2, readNat_concat, readNat_fixed 16 (by decide) (by decide) _ _ h1, readNat_fixed 16 (by decide) (by decide) _ _ h2, fixed_length]
  rfl

/-- What is required of `apr_time_exp_gmt`: the fields of a time are those of its second in the Gregorian calendar. -/
def GmtOk (gmt : Int → Option Exp) (t : Int) : Prop :=
  ∃ (e : Exp) (y mo d h mi s : Nat), gmt t = some e ∧ e.year = (y : Int) - 1900 ∧ e.mon = (mo : Int) - 1 ∧ e.mday = d ∧ e.hour = h ∧
    e.min = mi ∧ e.sec = s ∧ y < 10000 ∧ mo < 100 ∧ d < 100 ∧ h < 100 ∧ mi < 100 ∧ s < 100 ∧
    epochSeconds y mo d h mi s = t / 1000000

theorem fixed2 (n : Nat) : ∃ a b, fixed 10 2 n = [a, b] := ⟨_, _, rfl⟩

theorem fixed4 (n : Nat) : ∃ a b c d, fixed 10 4 n = [a, b, c, d] := ⟨_, _, _, _, rfl⟩

theorem paddedInt_eq (k n : Nat) (h : n < 10 ^ k) : paddedInt k n = fixed 10 k n := by
  unfold paddedInt padded
  rw [if_pos (by omega), Int.toNat_natCast, if_pos h]

/-- The time stamp denotes the second of the time. -/
theorem readTime_isoTime (gmt : Int → Option Exp) (t : Int) (h : GmtOk gmt t) : readTime (isoTime gmt t) = some (t / 1000000) := by
  obtain ⟨e, y, mo, d, h, mi, s, e0, e1, e2, e3, e4, e5, e6, l1, l2, l3, l4, l5, l6, hs⟩ := h
  unfold isoTime
  rw [e0]
  dsimp only
  rw [e1, e2, e3, e4, e5, e6, show ((y : Int) - 1900 + 1900) = (y : Nat) by omega, show ((mo : Int) - 1 + 1) = (mo : Nat) by omega,
    paddedInt_eq 4 y l1, paddedInt_eq 2 mo l2, paddedInt_eq 2 d l3, paddedInt_eq 2 h l4, paddedInt_eq 2 mi l5, paddedInt_eq 2 s l6, ← hs]
  have r1 := readNat_fixed 10 (by decide) (by decide) 4 y l1
  have r2 := readNat_fixed 10 (by decide) (by decide) 2 mo l2
  have r3 := readNat_fixed 10 (by decide) (by decide) 2 d l3
  have r4 := readNat_fixed 10 (by decide) (by decide) 2 h l4
  have r5 := readNat_fixed 10 (by decide) (by decide) 2 mi l5
  have r6 := readNat_fixed 10 (by decide) (by decide) 2 s l6
  obtain ⟨y1, y2, y3, y4, hy⟩ := fixed4 y
  obtain ⟨m1, m2, hm⟩ := fixed2 mo
  obtain ⟨d1, d2, hd⟩ := fixed2 d
  obtain ⟨h1, h2, hh⟩ := fixed2 h
  obtain ⟨i1, i2, hi⟩ := fixed2 mi
  obtain ⟨s1, s2, hss⟩ := fixed2 s
  rw [hy] at r1 ⊢; rw [hm] at r2 ⊢; rw [hd] at r3 ⊢; rw [hh] at r4 ⊢; rw [hi] at r5 ⊢; rw [hss] at r6 ⊢
  simp only [List.cons_append, List.nil_append, readTime, r1, r2, r3, r4, r5, r6]

/-! ## Texts that are ASCII -/

theorem utf8_ascii (s : List Nat) (h : ∀ n ∈ s, n < 128) : utf8 s = true := by
  induction s with
  | nil => rfl
  | cons a s ih =>
    unfold utf8
    rw [if_pos (h a (by simp)), ih (fun n hn => h n (by simp [hn]))]

theorem digitChar_ascii : ∀ d < 16, (Nat.digitChar d).toNat < 128 := by decide

theorem fixed_ascii (base : Nat) (hb : base ≤ 16) (h0 : 0 < base) : ∀ k n c, c ∈ fixed base k n → c.toNat < 128 := by
  intro k
  induction k with
  | zero => intro n c h; simp [fixed] at h
  | succ k ih =>
    intro n c h
    rw [fixed, List.mem_append, List.mem_singleton] at h
    rcases h with h | rfl
    · exact ih _ _ h
    · exact digitChar_ascii _ (Nat.lt_of_lt_of_le (Nat.mod_lt _ h0) hb)

theorem jsonString_ascii (s : List Char) (h : ∀ c ∈ s, c.toNat < 128) : jsonString s = some (.str s) := by
  unfold jsonString
  rw [if_pos]
  apply utf8_ascii
  intro n hn
  obtain ⟨c, hc, rfl⟩ := List.mem_map.mp hn
  exact h c hc

theorem hexDigest_ascii (h : Digest) : ∀ c ∈ hexDigest h, c.toNat < 128 := by
  have h1 : h.high.toNat < 16 ^ 16 := h.high.toNat_lt
  have h2 : h.low.toNat < 16 ^ 16 := h.low.toNat_lt
  intro c hc
  unfold hexDigest padded at hc
  rw [if_pos h1, if_pos h2, List.mem_append] at hc
  rcases hc with hc | hc <;> exact fixed_ascii 16 (by decide) (by decide) _ _ _ hc

theorem isoTime_ascii (gmt : Int → Option Exp) (t : Int) (h : GmtOk gmt t) : ∀ c ∈ isoTime gmt t, c.toNat < 128 := by
  obtain ⟨e, y, mo, d, h, mi, s, e0, e1, e2, e3, e4, e5, e6, l1, l2, l3, l4, l5, l6, hs⟩ := h
  unfold isoTime
  rw [e0]
  dsimp only
  rw [e1, e2, e3, e4, e5, e6, show ((y : Int) - 1900 + 1900) = (y : Nat) by omega, show ((mo : Int) - 1 + 1) = (mo : Nat) by omega,
    paddedInt_eq 4 y l1, paddedInt_eq 2 mo l2, paddedInt_eq 2 d l3, paddedInt_eq 2 h l4, paddedInt_eq 2 mi l5, paddedInt_eq 2 s l6]
  intro c hc
  have F := fixed_ascii 10 (by decide) (by decide)
  simp only [List.mem_append, List.mem_cons, List.not_mem_nil, or_false] at hc
  rcases hc with hc | rfl | hc | rfl | hc | rfl | hc | rfl | hc | rfl | hc | rfl
  all_goals first | exact F _ _ _ hc | decide

/-! ## The document -/

theorem sequence_some {α β : Type} (f : α → Option β) (g : α → β) : ∀ (l : List α), (∀ x ∈ l, f x = some (g x)) → sequence (l.map f) = some (l.map g) := by
  intro l
  induction l with
  | nil => intro _; rfl
  | cons x l ih =>
    intro h
    rw [List.map_cons, sequence, h x (by simp), ih (fun y hy => h y (by simp [hy]))]
    rfl

/-- What the report should say about a file. -/
def recOf (f : FileEnt) : FileRec := ⟨f.path.toList, f.mtime / 1000000, f.prio⟩

theorem readFile_fileJson (gmt : Int → Option Exp) (untar : Bool) (f : FileEnt) (hu : utf8 (f.path.toList.map Char.toNat) = true)
    (ht : GmtOk gmt f.mtime) : readFile (fileJson gmt untar f) = some (recOf f) := by
  have hp : (Report.prioVal f != 0) = f.prio := by unfold Report.prioVal; cases f.prio <;> rfl
  unfold fileJson
  rw [jsonString_ascii _ (isoTime_ascii gmt _ ht), hp]
  simp only [jsonString, hu, if_true]
  cases untar <;> simp [setNew, readFile, Json.get, List.lookup, Json.text, Json.flag, readTime_isoTime gmt _ ht, recOf]

/-- What the report should say about a group. -/
def groupRecOf (g : Group Digest) : GroupRec := ⟨g.size, g.hash.val, g.files.map recOf⟩

theorem readGroup_groupJson (gmt : Int → Option Exp) (untar : Bool) (g : Group Digest)
    (hf : ∀ f ∈ g.files, utf8 (f.path.toList.map Char.toNat) = true ∧ GmtOk gmt f.mtime) :
    readGroup (groupJson gmt untar g) = some (groupRecOf g) := by
  have hs := sequence_some (fun f => readFile (fileJson gmt untar f)) recOf g.files (fun f hfm => readFile_fileJson gmt untar f (hf f hfm).1 (hf f hfm).2)
  unfold groupJson
  rw [jsonString_ascii _ (hexDigest_ascii g.hash)]
  simp [setNew, readGroup, Json.get, List.lookup, Json.text, Json.nat, Json.items, readNat_hexDigest, groupRecOf, Function.comp_def, hs]

/-- **C82, part.**  The JSON report of a completed run tells its reader for every group the size, the digest, and the name, time and priority of each of its
files, if the names are UTF-8 and the times lie in the years 0 to 9999.  Missing: names that are not UTF-8 (`name_missing`). -/
theorem json_report_read_back_partial (gmt : Int → Option Exp) (untar : Bool) (w : World Digest) (cands : List FileEnt) (out : Outcome Digest)
    (gs : List (Group Digest)) (hl : Limits w cands) (hq : ∀ l, (w.qs l).Perm l) (h : ftwin w true cands = .ok out) (hg : out.groups = some gs)
    (hu : ∀ f ∈ cands, utf8 (f.path.toList.map Char.toNat) = true) (ht : ∀ f ∈ cands, GmtOk gmt f.mtime) :
    readJson (jsonReport gmt untar gs) = some (gs.map groupRecOf) := by
  have hm := listed_mem w true cands out gs hl hq h hg
  unfold readJson jsonReport
  simp only [Json.items, Option.bind_eq_bind, Option.bind_some, List.map_map]
  exact sequence_some (readGroup ∘ groupJson gmt untar) groupRecOf gs (fun g hgm =>
    readGroup_groupJson gmt untar g (fun f hf => ⟨hu f ((hm g hgm).2 f hf), ht f ((hm g hgm).2 f hf)⟩))

/-- **C82, part.**  The size and the digest given for a group are those of each of its files, if its digest could be computed. -/
theorem json_group_of_its_files (w : World Digest) (cands : List FileEnt) (out : Outcome Digest) (gs : List (Group Digest))
    (hl : Limits w cands) (hq : ∀ l, (w.qs l).Perm l) (h : ftwin w true cands = .ok out) (hg : out.groups = some gs) :
    ∀ g ∈ gs, ∀ f ∈ g.files, (groupRecOf g).size = f.size ∧ ∀ d, w.dig f = some d → (groupRecOf g).digest = d.val := by
  obtain ⟨s⟩ := Report.shape w true cands out hl h
  intro g hgm f hf
  rw [s.groups] at hg
  simp only [Option.some.injEq] at hg
  rw [← hg, List.mem_flatMap] at hgm
  obtain ⟨k, hk, hgm⟩ := hgm
  obtain ⟨h1, -, -⟩ := Report.outer_sound w true k _ _ _ (s.per k).1 (s.per k).2 (s.run k hk)
  obtain ⟨e1, -, -, e4⟩ := h1 g hgm
  obtain ⟨e, he, h2, h3⟩ := e4 f hf
  have he := (hq _).subset he
  obtain ⟨f', hf', rfl⟩ := List.mem_map.mp he
  simp only [Report.mark, Option.some.injEq] at h2
  subst h2
  refine ⟨?_, ?_⟩
  · simp only [Report.cls, List.mem_filter, decide_eq_true_eq] at hf'
    simp only [groupRecOf, e1, hf'.2]
  · intro d hd
    simp only [groupRecOf, ← h3, Report.mark, Report.direct, hd]
    simp

/-- **C82 is false.**  Whatever the group, the entry of a file whose name is not UTF-8 has no name. -/
theorem name_missing (gmt : Int → Option Exp) (untar : Bool) (f : FileEnt) (hu : utf8 (f.path.toList.map Char.toNat) = false) :
    (fileJson gmt untar f).get "path" = none := by
  have hp : jsonString f.path.toList = none := by unfold jsonString; rw [hu]; rfl
  unfold fileJson
  rw [hp]
  cases untar <;> cases jsonString (isoTime gmt f.mtime) <;> simp [setNew, Json.get, List.lookup]

/-! ## Runs -/

/-- A world in which all files are identical. -/
def jsonWorld : World Digest where
  dig := fun _ => some ⟨10, 0xff⟩
  junk := fun _ => ⟨7, 7⟩
  fc := fun _ _ _ => .ok (true, 0)
  zero := ⟨0, 0⟩
  hcmp := fun _ _ => 0
  qs := id
  sizeHash := fun n => n.toUInt32
  fuel := 64

theorem jsonWorld_limits (cands : List FileEnt) (ss : List Nat) (h : cands.length ≤ 31) (hss : ss.length ≤ 7) (hm : ∀ f ∈ cands, f.size ∈ ss) :
    Limits jsonWorld cands where
  len := (Report.natWorld_limits (fun _ => none) (fun _ _ _ => .ub) cands ss h hss hm).len
  fuel := (Report.natWorld_limits (fun _ => none) (fun _ _ _ => .ub) cands ss h hss hm).fuel
  sizes := (Report.natWorld_limits (fun _ => none) (fun _ _ _ => .ub) cands ss h hss hm).sizes

/-- Half past noon on 29 February 2024. -/
def leapGmt : Int → Option Exp := fun _ => some ⟨124, 1, 29, 12, 30, 5⟩

def leapFiles : List FileEnt := [⟨"a", 3, 1709209805000000, false⟩, ⟨"b\"", 3, 1709209805999999, true⟩]

theorem leap_run : ∃ out, ftwin jsonWorld true leapFiles = .ok out ∧ out.groups = some [⟨3, ⟨10, 0xff⟩, leapFiles⟩] :=
  run_eval (gs := [(3, ⟨10, 0xff⟩, leapFiles)]) leapFiles [3] (jsonWorld_limits _ [3] (by decide) (by decide) (by decide))
    (by decide +kernel) (by decide) (by decide) (by decide) (by decide +kernel)

/-- The hypotheses of `json_report_read_back_partial` hold of this run. -/
example : (∀ f ∈ leapFiles, utf8 (f.path.toList.map Char.toNat) = true) ∧ (∀ f ∈ leapFiles, GmtOk leapGmt f.mtime) ∧
    readJson (jsonReport leapGmt false [⟨3, ⟨10, 0xff⟩, leapFiles⟩]) =
      some [⟨3, 10 * 2 ^ 64 + 255, [⟨['a'], 1709209805, false⟩, ⟨['b', '"'], 1709209805, true⟩]⟩] := by
  refine ⟨by decide +kernel, ?_, by decide +kernel⟩
  intro f hf
  refine ⟨_, 2024, 2, 29, 12, 30, 5, rfl, by decide, by decide, by decide, by decide, by decide, by decide, by decide, by decide, by decide,
    by decide, by decide, by decide, ?_⟩
  simp only [leapFiles, List.mem_cons, List.not_mem_nil, or_false] at hf
  rcases hf with rfl | rfl <;> decide +kernel

/-- Two identical files; the name of the second is the one byte `E9` (`é` in Latin-1). -/
def latinFiles : List FileEnt := [⟨"a", 3, 1709209805000000, false⟩, ⟨String.ofList [Char.ofNat 0xE9], 3, 1709209805000000, false⟩]

/-- **C82 is false**: a run that finds two identical files and does not say in its report what the second is called. -/
theorem json_report_without_name : ∃ out g, ftwin jsonWorld true latinFiles = .ok out ∧ out.groups = some [g] ∧ g.files = latinFiles ∧
    readJson (jsonReport leapGmt false [g]) = none ∧
    latinFiles.map (fun f => ((fileJson leapGmt false f).get "path").isSome) = [true, false] := by
  obtain ⟨out, h1, h2⟩ := run_eval (json := true) (gs := [(3, (⟨10, 0xff⟩ : Digest), latinFiles)]) latinFiles [3]
    (jsonWorld_limits latinFiles [3] (by decide) (by decide) (by decide))
    (by decide +kernel) (by decide) (by decide) (by decide) (by decide +kernel)
  exact ⟨out, _, h1, h2, rfl, by decide +kernel, by decide +kernel⟩

end Verif.Output
