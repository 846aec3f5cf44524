import Verif.Output.JsonTextLemmas
import Verif.Output.JsonProps
import Verif.Main.Model

/-! # The JSON report as a text (C82, C119) -/

namespace Verif.Output

open Verif.Report (FileEnt Group World Outcome Limits ftwin)

/-- The text written for a document in which all strings are UTF-8 is read back as that document, by any reader that follows RFC 8259. -/
theorem text_read_back {j : Json} (h : Utf8Json j) : ∃ t, jsonStdout j = some t ∧ readText t = some j := by
  obtain ⟨t, h1, -, h3⟩ := back h 0
  refine ⟨t ++ ['\n'], by unfold jsonStdout; rw [h1]; rfl, ?_⟩
  unfold readText
  rw [h3 _ _ (by simp; omega) (by intro c hc; have : c = '\n' := by simpa using hc.symm
                                  subst this; decide)]
  rfl

/-! ## What characters are written -/

/-- Printable ASCII, delete, and the line feed. -/
def AsciiText (t : List Char) : Prop := ∀ c ∈ t, c = '\n' ∨ (0x20 ≤ c.toNat ∧ c.toNat ≤ 0x7F)

theorem AsciiText.append {a b : List Char} (ha : AsciiText a) (hb : AsciiText b) : AsciiText (a ++ b) := by
  intro c hc
  rcases List.mem_append.1 hc with h | h
  · exact ha c h
  · exact hb c h

theorem AsciiText.cons {c : Char} {b : List Char} (h : 0x20 ≤ c.toNat ∧ c.toNat ≤ 0x7F) (hb : AsciiText b) : AsciiText (c :: b) := by
  intro x hx
  rcases List.mem_cons.1 hx with rfl | hx
  · exact .inr h
  · exact hb x hx

theorem AsciiText.nil : AsciiText [] := by intro c hc; cases hc

theorem upperHex_plain : ∀ d < 16, 0x20 ≤ (upperHex d).toNat ∧ (upperHex d).toNat ≤ 0x7F := by decide

theorem unicode_plain (n : Nat) : AsciiText (unicodeEscape n) :=
  .cons (by decide) (.cons (by decide) (.cons (upperHex_plain _ (Nat.mod_lt _ (by decide))) (.cons (upperHex_plain _ (Nat.mod_lt _ (by decide)))
    (.cons (upperHex_plain _ (Nat.mod_lt _ (by decide))) (.cons (upperHex_plain _ (Nat.mod_lt _ (by decide))) .nil)))))

theorem code_plain (n : Nat) : AsciiText (dumpCode n) := by
  unfold dumpCode
  repeat' split
  · exact .cons (by decide) (.cons (by decide) .nil)
  · exact .cons (by decide) (.cons (by decide) .nil)
  · exact .cons (by decide) (.cons (by decide) .nil)
  · exact .cons (by decide) (.cons (by decide) .nil)
  · exact .cons (by decide) (.cons (by decide) .nil)
  · exact .cons (by decide) (.cons (by decide) .nil)
  · exact .cons (by decide) (.cons (by decide) .nil)
  · rename_i h
    exact .cons (by rw [toNat_ofNat (by omega)]; exact h) .nil
  · exact unicode_plain _
  · exact (unicode_plain _).append (unicode_plain _)

theorem codes_plain : ∀ (k : Nat) (s : List Nat) (t : List Char), dumpCodes k s = some t → AsciiText t := by
  intro k
  induction k with
  | zero =>
    intro s t h
    cases s with
    | nil => rw [dumpCodes] at h; cases h; exact .cons (by decide) .nil
    | cons a s => rw [dumpCodes] at h; · cases h
                  · simp
  | succ k ih =>
    intro s t h
    cases s with
    | nil => rw [dumpCodes] at h; cases h; exact .cons (by decide) .nil
    | cons a s =>
      rw [dumpCodes] at h
      · obtain ⟨x, -, h⟩ := Option.bind_eq_some_iff.1 h
        obtain ⟨r, h2, h⟩ := Option.bind_eq_some_iff.1 h
        cases h
        exact (code_plain _).append (ih _ _ h2)
      · simp

theorem string_plain {s t : List Char} (h : dumpString s = some t) : AsciiText t := by
  unfold dumpString at h
  obtain ⟨r, h1, h⟩ := Option.map_eq_some_iff.1 h
  cases h
  exact .cons (by decide) (codes_plain _ _ _ h1)

theorem indent_plain (d : Nat) : AsciiText (dumpIndent d) := by
  intro c hc
  rcases List.mem_cons.1 hc with rfl | hc
  · exact .inl rfl
  · rw [List.eq_of_mem_replicate hc]; exact .inr (by decide)

theorem isDigit_plain {c : Char} (h : c.isDigit = true) : 0x20 ≤ c.toNat ∧ c.toNat ≤ 0x7F := by
  simp only [Char.isDigit, Bool.and_eq_true, decide_eq_true_eq] at h
  have h1 : (48 : UInt32).toNat ≤ c.val.toNat := UInt32.le_iff_toNat_le.1 h.1
  have h2 : c.val.toNat ≤ (57 : UInt32).toNat := UInt32.le_iff_toNat_le.1 h.2
  have h3 : (48 : UInt32).toNat = 48 := rfl
  have h4 : (57 : UInt32).toNat = 57 := rfl
  unfold Char.toNat
  omega

theorem digits_plain (n : Nat) : AsciiText (Nat.toDigits 10 n) := by
  obtain ⟨c, r, h1, h2, -⟩ := toDigits_spec n
  rw [h1]
  intro x hx
  exact .inr (isDigit_plain (h2 x hx))

theorem int_plain (n : Int) : AsciiText (dumpInt n) := by
  unfold dumpInt
  split
  · exact digits_plain _
  · exact .cons (by decide) (digits_plain _)

mutual

theorem dump_plain (d : Nat) : ∀ (j : Json) (t : List Char), dump d j = some t → AsciiText t
  | .null, t, h => by rw [dump] at h; cases h; exact fun c hc => .inr (by revert c; decide)
  | .bool true, t, h => by rw [dump] at h; cases h; exact fun c hc => .inr (by revert c; decide)
  | .bool false, t, h => by rw [dump] at h; cases h; exact fun c hc => .inr (by revert c; decide)
  | .int n, t, h => by rw [dump] at h; cases h; exact int_plain n
  | .str s, t, h => by rw [dump] at h; exact string_plain h
  | .arr [], t, h => by rw [dump] at h; cases h; exact .cons (by decide) (.cons (by decide) .nil)
  | .arr (x :: l), t, h => by
    rw [dump] at h
    obtain ⟨a, h1, h⟩ := Option.bind_eq_some_iff.1 h
    obtain ⟨b, h2, h⟩ := Option.bind_eq_some_iff.1 h
    cases h
    exact .cons (by decide) ((indent_plain _).append ((dump_plain (d + 1) x a h1).append (elements_plain d l b h2)))
  | .obj [], t, h => by rw [dump] at h; cases h; exact .cons (by decide) (.cons (by decide) .nil)
  | .obj ((key, v) :: l), t, h => by
    rw [dump] at h
    obtain ⟨a, h1, h⟩ := Option.bind_eq_some_iff.1 h
    obtain ⟨b, h2, h⟩ := Option.bind_eq_some_iff.1 h
    obtain ⟨c, h3, h⟩ := Option.bind_eq_some_iff.1 h
    cases h
    exact .cons (by decide) ((indent_plain _).append ((string_plain h1).append (.cons (by decide) (.cons (by decide)
      ((dump_plain (d + 1) v b h2).append (members_plain d l c h3))))))

theorem elements_plain (d : Nat) : ∀ (l : List Json) (t : List Char), dumpElements d l = some t → AsciiText t
  | [], t, h => by rw [dumpElements] at h; cases h; exact (indent_plain _).append (.cons (by decide) .nil)
  | x :: l, t, h => by
    rw [dumpElements] at h
    obtain ⟨a, h1, h⟩ := Option.bind_eq_some_iff.1 h
    obtain ⟨b, h2, h⟩ := Option.bind_eq_some_iff.1 h
    cases h
    exact .cons (by decide) ((indent_plain _).append ((dump_plain (d + 1) x a h1).append (elements_plain d l b h2)))

theorem members_plain (d : Nat) : ∀ (l : List (String × Json)) (t : List Char), dumpMembers d l = some t → AsciiText t
  | [], t, h => by rw [dumpMembers] at h; cases h; exact (indent_plain _).append (.cons (by decide) .nil)
  | (key, v) :: l, t, h => by
    rw [dumpMembers] at h
    obtain ⟨a, h1, h⟩ := Option.bind_eq_some_iff.1 h
    obtain ⟨b, h2, h⟩ := Option.bind_eq_some_iff.1 h
    obtain ⟨c, h3, h⟩ := Option.bind_eq_some_iff.1 h
    cases h
    exact .cons (by decide) ((indent_plain _).append ((string_plain h1).append (.cons (by decide) (.cons (by decide)
      ((dump_plain (d + 1) v b h2).append (members_plain d l c h3))))))

end

/-! ## Reports -/

theorem jsonString_utf8 {s : List Char} {j : Json} (h : jsonString s = some j) : Utf8Json j := by
  unfold jsonString at h
  split at h
  · rename_i hu; cases h; exact .str hu
  · cases h

/-- Members that are UTF-8. -/
def Utf8Members (m : List (String × Json)) : Prop := ∀ x ∈ m, utf8 (x.1.toList.map Char.toNat) = true ∧ Utf8Json x.2

theorem setNew_utf8 {m : List (String × Json)} {k : String} {v : Option Json} (hm : Utf8Members m) (hk : utf8 (k.toList.map Char.toNat) = true)
    (hv : ∀ j, v = some j → Utf8Json j) : Utf8Members (setNew m k v) := by
  unfold setNew
  cases v with
  | none => exact hm
  | some j =>
    intro x hx
    rcases List.mem_append.1 hx with hx | hx
    · exact hm x hx
    · rw [List.mem_singleton.1 hx]; exact ⟨hk, hv j rfl⟩

theorem obj_utf8 {m : List (String × Json)} (h : Utf8Members m) : Utf8Json (.obj m) := .obj (fun x hx => (h x hx).1) (fun x hx => (h x hx).2)

theorem file_utf8 (gmt : Int → Option Exp) (untar : Bool) (f : FileEnt) : Utf8Json (fileJson gmt untar f) := by
  unfold fileJson
  have h0 : Utf8Members (setNew [] "path" (jsonString f.path.toList)) :=
    setNew_utf8 (fun x hx => by cases hx) (by decide +kernel) (fun j => jsonString_utf8)
  refine obj_utf8 (setNew_utf8 (setNew_utf8 ?_ (by decide +kernel) (fun j => jsonString_utf8)) (by decide +kernel) ?_)
  · cases untar
    · exact h0
    · show Utf8Members (setNew _ "archive_subpath" (some .null))
      exact setNew_utf8 h0 (by decide +kernel) (fun j hj => by cases hj; exact .null)
  · intro j hj; cases hj; exact .bool _

theorem group_utf8 (gmt : Int → Option Exp) (untar : Bool) (g : Group Digest) : Utf8Json (groupJson gmt untar g) := by
  unfold groupJson
  refine obj_utf8 (setNew_utf8 (setNew_utf8 (setNew_utf8 (fun x hx => by cases hx) (by decide +kernel) ?_) (by decide +kernel)
    (fun j => jsonString_utf8)) (by decide +kernel) ?_)
  · intro j hj; cases hj; exact .int _
  · intro j hj; cases hj
    refine .arr (fun x hx => ?_)
    obtain ⟨f, -, rfl⟩ := List.mem_map.1 hx
    exact file_utf8 gmt untar f

theorem report_utf8 (gmt : Int → Option Exp) (untar : Bool) (gs : List (Group Digest)) : Utf8Json (jsonReport gmt untar gs) := by
  refine .arr (fun x hx => ?_)
  obtain ⟨g, -, rfl⟩ := List.mem_map.1 hx
  exact group_utf8 gmt untar g

/-- **C119.**  Whatever the groups are, and whatever bytes the names consist of, writing the report succeeds, and what is written is one JSON text, all in ASCII and without control characters but line feeds,
that denotes the document. -/
theorem json_output_valid (gmt : Int → Option Exp) (untar : Bool) (gs : List (Group Digest)) :
    ∃ t, jsonStdout (jsonReport gmt untar gs) = some t ∧ readText t = some (jsonReport gmt untar gs) ∧ AsciiText t := by
  obtain ⟨t, h1, h2⟩ := text_read_back (report_utf8 gmt untar gs)
  refine ⟨t, h1, h2, ?_⟩
  unfold jsonStdout at h1
  obtain ⟨r, h3, h4⟩ := Option.map_eq_some_iff.1 h1
  subst h4
  exact (dump_plain 0 _ _ h3).append (fun c hc => .inl (by simpa using hc))

/-- **C82, part**, for the text: what a reader of the standard output finds is, for every group, the size, the digest, and the name, time and priority of each file.  Missing: names that are not UTF-8
(`name_missing`). -/
theorem json_output_read_back_partial (gmt : Int → Option Exp) (untar : Bool) (w : World Digest) (cands : List FileEnt) (out : Outcome Digest)
    (gs : List (Group Digest)) (hl : Limits w cands) (hq : ∀ l, (w.qs l).Perm l) (h : ftwin w true cands = .ok out) (hg : out.groups = some gs)
    (hu : ∀ f ∈ cands, utf8 (f.path.toList.map Char.toNat) = true) (ht : ∀ f ∈ cands, GmtOk gmt f.mtime) :
    ∃ t, jsonStdout (jsonReport gmt untar gs) = some t ∧ (readText t).bind readJson = some (gs.map groupRecOf) := by
  obtain ⟨t, h1, h2⟩ := text_read_back (report_utf8 gmt untar gs)
  exact ⟨t, h1, by rw [h2]; exact json_report_read_back_partial gmt untar w cands out gs hl hq h hg hu ht⟩

end Verif.Output

namespace Verif.Main

open Verif.Output (jsonStdout readText AsciiText)

/-- **C119**, whole runs: whatever the command line, the files and the schedule of the threads, if a run leaves a JSON document, its standard output is one JSON text in ASCII that denotes it. -/
theorem json_run_valid (m : Machine) (pz : Image.Puzzle ν δ) (level : Nat → δ) (evs : List (Pool.Ev Nat)) (ts : List Config.Tok) (args : List Traverse.Path) {st : Int}
    {j : Output.Json} (h : ftwinMain m pz level evs ts args = .ok (st, .json j)) : st = 0 ∧ ∃ t, jsonStdout j = some t ∧ readText t = some j ∧ AsciiText t := by
  unfold ftwinMain at h
  obtain ⟨ig, -, h⟩ := Res.bind_eq_ok.1 h
  obtain ⟨gl, -, h⟩ := Res.bind_eq_ok.1 h
  obtain ⟨o, -, h⟩ := Res.bind_eq_ok.1 h
  cases o with
  | none =>
    obtain ⟨s, -, h⟩ := Res.bind_eq_ok.1 h
    cases h
  | some c =>
    obtain ⟨og, -, h⟩ := Res.bind_eq_ok.1 h
    cases og with
    | none => cases h
    | some gids =>
      obtain ⟨out, h1, h⟩ := Res.bind_eq_ok.1 h
      cases h
      refine ⟨rfl, ?_⟩
      unfold processing at h1
      obtain ⟨r, -, h1⟩ := Res.bind_eq_ok.1 h1
      split at h1
      · cases h1
      unfold Image.processing at h1
      split at h1
      · split at h1
        · obtain ⟨t, -, h1⟩ := Res.bind_eq_ok.1 h1
          cases h1
        · obtain ⟨x, -, h1⟩ := Res.bind_eq_ok.1 h1
          split at h1
          · cases h1
          · split at h1
            · cases h1
              exact Output.json_output_valid _ _ _
            · cases h1
      · cases h1

end Verif.Main

namespace Verif.Output

/-- A report on two identical files, one of which has a quotation mark, a line feed, an e with acute accent and an emoji in its name. -/
example : ((jsonStdout (jsonReport leapGmt false [⟨3, ⟨10, 0xff⟩, [⟨"a", 3, 1709209805000000, false⟩,
      ⟨String.ofList (['b', '"', '\n'] ++ [0xC3, 0xA9, 0xF0, 0x9F, 0x98, 0x80].map Char.ofNat), 3, 1709209805999999, true⟩]⟩])).map String.ofList) =
    some "[
  {
    \"size_bytes\": 3,
    \"hash_xxh128\": \"000000000000000a00000000000000ff\",
    \"duplicates\": [
      {
        \"path\": \"a\",
        \"mtime_utc\": \"2024-02-29T12:30:05Z\",
        \"prioritized\": false
      },
      {
        \"path\": \"b\\\"\\n\\u00E9\\uD83D\\uDE00\",
        \"mtime_utc\": \"2024-02-29T12:30:05Z\",
        \"prioritized\": true
      }
    ]
  }
]
" := by decide +kernel

/-- The run of `leap_run`: its standard output, read back. -/
example : ∃ out gs t, Report.ftwin jsonWorld true leapFiles = .ok out ∧ out.groups = some gs ∧ jsonStdout (jsonReport leapGmt false gs) = some t ∧
    (readText t).bind readJson = some [⟨3, 10 * 2 ^ 64 + 255, [⟨['a'], 1709209805, false⟩, ⟨['b', '"'], 1709209805, true⟩]⟩] := by
  obtain ⟨out, h1, h2⟩ := leap_run
  obtain ⟨t, h3, h4⟩ := text_read_back (report_utf8 leapGmt false [⟨3, ⟨10, 0xff⟩, leapFiles⟩])
  refine ⟨out, _, t, h1, h2, h3, ?_⟩
  rw [h4]; decide +kernel

end Verif.Output
