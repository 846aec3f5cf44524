import Verif.Output.Spec
import Verif.Output.Model

/-! # Lemmas: cutting what was joined -/

namespace Verif.Output

open Verif.Report (FileEnt Group)

/-- The names of a group with separators between them. -/
def joinWith (sep : Char) : List (List Char) → List Char
  | [] => []
  | [p] => p
  | p :: q :: ps => p ++ sep :: joinWith sep (q :: ps)

/-- A block of a report. -/
def blockText (sep : Char) (ps : List (List Char)) : List Char := joinWith sep ps ++ ['\n', '\n']

theorem cutBlocks_name (p x : List Char) : ∀ acc, '\n' ∉ p → cutBlocks (p ++ x) acc = cutBlocks x (p.reverse ++ acc) := by
  induction p with
  | nil => intro acc _; simp
  | cons c p ih =>
    intro acc h
    simp only [List.mem_cons, not_or] at h
    have hc : c ≠ '\n' := fun e => h.1 e.symm
    have := ih (c :: acc) h.2
    rw [List.cons_append, List.reverse_cons, List.append_assoc, List.singleton_append, ← this]
    cases hx : p ++ x with
    | nil =>
      rw [cutBlocks, cutBlocks]
      simp
    | cons d r => rw [cutBlocks, if_neg (fun e => hc e.1)]

theorem cutBlocks_sep {sep : Char} {q : List Char} (hq : q ≠ []) (hn : '\n' ∉ q) (x acc : List Char) :
    cutBlocks (sep :: (q ++ x)) acc = cutBlocks (q ++ x) (sep :: acc) := by
  cases q with
  | nil => exact absurd rfl hq
  | cons d q =>
    rw [List.cons_append, cutBlocks, if_neg]
    rintro ⟨_, rfl⟩
    exact hn (by simp)

theorem cutBlocks_block (sep : Char) (x : List Char) : ∀ (ps : List (List Char)) (acc : List Char), (∀ p ∈ ps, p ≠ [] ∧ '\n' ∉ p) →
    cutBlocks (joinWith sep ps ++ '\n' :: '\n' :: x) acc = (acc.reverse ++ joinWith sep ps) :: cutBlocks x [] := by
  intro ps
  induction ps with
  | nil => intro acc _; simp [joinWith, cutBlocks]
  | cons p ps ih =>
    intro acc h
    have hp := h p (by simp)
    cases ps with
    | nil =>
      simp only [joinWith]
      rw [cutBlocks_name p _ acc hp.2, cutBlocks, if_pos ⟨rfl, rfl⟩]
      simp
    | cons q ps =>
      simp only [joinWith]
      have hq := h q (by simp)
      rw [List.append_assoc, List.cons_append, cutBlocks_name p _ acc hp.2]
      have hj : ∃ y, joinWith sep (q :: ps) ++ '\n' :: '\n' :: x = q ++ y := by
        cases ps with
        | nil => exact ⟨_, rfl⟩
        | cons r ps => exact ⟨sep :: joinWith sep (r :: ps) ++ '\n' :: '\n' :: x, by simp only [joinWith, List.append_assoc]⟩
      obtain ⟨y, hy⟩ := hj
      rw [hy, cutBlocks_sep hq.1 hq.2, ← hy, ih _ (fun r hr => h r (by simp [hr]))]
      simp

theorem cutAt_name (sep : Char) (p x : List Char) : ∀ acc, sep ∉ p → cutAt sep (p ++ x) acc = cutAt sep x (p.reverse ++ acc) := by
  induction p with
  | nil => intro acc _; simp
  | cons c p ih =>
    intro acc h
    simp only [List.mem_cons, not_or] at h
    rw [List.cons_append, cutAt, if_neg (fun e => h.1 e.symm), ih _ h.2]
    simp

theorem cutAt_join (sep : Char) : ∀ (ps : List (List Char)), ps ≠ [] → (∀ p ∈ ps, sep ∉ p) → cutAt sep (joinWith sep ps) [] = ps := by
  intro ps
  induction ps with
  | nil => intro h; exact absurd rfl h
  | cons p ps ih =>
    intro _ h
    have hp := h p (by simp)
    cases ps with
    | nil =>
      have := cutAt_name sep p [] [] hp
      simp only [List.append_nil] at this
      simp only [joinWith]
      rw [this, cutAt, List.reverse_reverse]
    | cons q ps =>
      simp only [joinWith]
      rw [cutAt_name sep p _ [] hp, cutAt, if_pos rfl, ih (by simp) (fun r hr => h r (by simp [hr]))]
      simp

theorem readReport_blocks (sep : Char) : ∀ (gs : List (List (List Char))), (∀ g ∈ gs, g ≠ [] ∧ ∀ p ∈ g, Plain sep p) →
    readReport sep (gs.flatMap (blockText sep)) = gs := by
  intro gs
  unfold readReport
  induction gs with
  | nil => intro _; rfl
  | cons g gs ih =>
    intro h
    obtain ⟨hne, hp⟩ := h g (by simp)
    rw [List.flatMap_cons, blockText, List.append_assoc]
    simp only [List.cons_append, List.nil_append]
    rw [cutBlocks_block sep _ g [] (fun p hpm => ⟨(hp p hpm).nonempty, (hp p hpm).oneLine⟩), List.map_cons,
      ih (fun g' hg' => h g' (by simp [hg']))]
    simp only [List.reverse_nil, List.nil_append]
    rw [cutAt_join sep g hne (fun p hpm => (hp p hpm).noSep)]

theorem firstLine_line (p x : List Char) (h : '\n' ∉ p) : firstLine (p ++ '\n' :: x) = (p, x) := by
  induction p with
  | nil => simp [firstLine]
  | cons c p ih =>
    simp only [List.mem_cons, not_or] at h
    rw [List.cons_append, firstLine, if_neg (fun e => h.1 e.symm), ih h.2]

/-- A block that begins with a line of its own. -/
def sizedText (sep : Char) (b : List Char × List (List Char)) : List Char := b.1 ++ '\n' :: blockText sep b.2

theorem readSized_blocks (sep : Char) : ∀ (gs : List (List Char × List (List Char))),
    (∀ g ∈ gs, '\n' ∉ g.1 ∧ g.2 ≠ [] ∧ ∀ p ∈ g.2, Plain sep p) → readSized sep (gs.flatMap (sizedText sep)) = gs := by
  intro gs
  unfold readSized
  induction gs with
  | nil => intro _; rfl
  | cons g gs ih =>
    intro h
    obtain ⟨hl, hne, hp⟩ := h g (by simp)
    rw [List.flatMap_cons, sizedText, blockText, List.append_assoc, List.cons_append, List.append_assoc]
    obtain ⟨q, qs, hq⟩ := List.exists_cons_of_ne_nil hne
    have hqp := hp q (by rw [hq]; simp)
    have hy : ∃ y, ∀ x, joinWith sep g.2 ++ '\n' :: '\n' :: x = q ++ (y ++ '\n' :: '\n' :: x) := by
      rw [hq]
      cases qs with
      | nil => exact ⟨[], fun x => rfl⟩
      | cons r qs => exact ⟨sep :: joinWith sep (r :: qs), fun x => by simp only [joinWith, List.append_assoc]⟩
    obtain ⟨y, hy⟩ := hy
    simp only [List.cons_append, List.nil_append]
    rw [cutBlocks_name _ _ _ hl, hy, cutBlocks_sep hqp.nonempty hqp.oneLine, ← hy,
      cutBlocks_block sep _ g.2 _ (fun p hpm => ⟨(hp p hpm).nonempty, (hp p hpm).oneLine⟩), List.map_cons,
      ih (fun g' hg' => h g' (by simp [hg']))]
    simp only [List.append_nil, List.reverse_cons, List.reverse_reverse]
    have : g.1 ++ ['\n'] ++ joinWith sep g.2 = g.1 ++ '\n' :: joinWith sep g.2 := by simp
    rw [this, firstLine_line _ _ hl]
    simp only
    rw [cutAt_join sep g.2 hne (fun p hpm => (hp p hpm).noSep)]

/-! ## What is printed -/

theorem printPairs_true (s : Style) (size : Nat) (f : FileEnt) : ∀ gs : List FileEnt,
    printPairs s size f true gs = (gs.flatMap fun g => s.sep :: printFile s g) ++ ['\n', '\n'] := by
  intro gs
  induction gs with
  | nil => rfl
  | cons g gs ih => simp [printPairs, printPair, ih]

theorem joinWith_eq (sep : Char) (p : List Char) : ∀ ps, joinWith sep (p :: ps) = p ++ ps.flatMap (fun q => sep :: q) := by
  intro ps
  induction ps generalizing p with
  | nil => simp [joinWith]
  | cons q ps ih => simp only [joinWith, List.flatMap_cons]; rw [ih q]; simp

/-- The size line of a block. -/
def sizeLine (s : Style) (size : Nat) : List Char :=
  if s.sized then s.colors.size ++ ['S', 'i', 'z', 'e', ':', ' '] ++ sizeText (HumanSize.format size) ++ s.colors.reset ++ ['\n'] else []

theorem printHead_eq (s : Style) (size : Nat) (f : FileEnt) : printHead s size f = sizeLine s size ++ printFile s f := rfl

theorem printPairs_false (s : Style) (size : Nat) (f f2 : FileEnt) (fs : List FileEnt) :
    printPairs s size f false (f2 :: fs) = printHead s size f ++ ((f2 :: fs).flatMap fun g => s.sep :: printFile s g) ++ ['\n', '\n'] := by
  rw [printPairs, printPair]
  simp only [Bool.false_eq_true, if_false]
  rw [printPairs_true]
  generalize printHead s size f = z
  simp

/-- A group of at least two files. -/
theorem printGroup_eq (s : Style) (g : Group η) (f f2 : FileEnt) (fs : List FileEnt) (h : g.files = f :: f2 :: fs) :
    printGroup s g = sizeLine s g.size ++ blockText s.sep (g.files.map (printFile s)) := by
  have h1 : printGroup s g = printPairs s g.size f false (f2 :: fs) := by unfold printGroup; rw [h]
  rw [h1, printPairs_false, printHead_eq, h, blockText, List.map_cons, joinWith_eq]
  generalize sizeLine s g.size = z
  simp [List.flatMap_map]

theorem digits_oneLine (n : Nat) : '\n' ∉ Nat.toDigits 10 n := by
  intro h
  have := Nat.isDigit_of_mem_toDigits (by decide) (by decide) h
  revert this; decide

theorem sizeText_oneLine (p : HumanSize.Printed) : '\n' ∉ sizeText p := by
  have hu : ∀ u, '\n' ∉ unitName u := by
    intro u
    match u with
    | 0 | 1 | 2 | 3 | 4 | 5 => decide
    | _ + 6 => simp [unitName]
  have hb := hu 0
  cases p with
  | bytes n => simp only [sizeText, List.mem_append, List.mem_cons, not_or]; exact ⟨digits_oneLine _, by decide, hb⟩
  | tenths t u =>
    simp only [sizeText, List.mem_append, List.mem_cons, not_or]
    exact ⟨digits_oneLine _, by decide, digits_oneLine _, by decide, hu u⟩

end Verif.Output
