import Verif.Archive.Model
import Verif.Archive.Spec

/-! # Helper lemmas for archives -/

namespace Verif.Archive

open Verif.Report (FileEnt)

theorem writeAt_length (c : List UInt8) (off : Nat) (b : List UInt8) (hb : b ≠ []) : (writeAt c off b).length = max c.length (off + b.length) := by
  unfold writeAt
  rw [if_neg hb]
  simp only [List.length_append, List.length_take, List.length_replicate, List.length_drop]
  omega

theorem writeAt_get (c : List UInt8) (off : Nat) (b : List UInt8) (hb : b ≠ []) (k : Nat) : (writeAt c off b)[k]? =
    if k < off then (if k < c.length then c[k]? else some 0) else if k < off + b.length then b[k - off]? else c[k]? := by
  unfold writeAt
  rw [if_neg hb]
  have hl : ((c ++ List.replicate (off - c.length) 0).take off).length = off := by
    simp only [List.length_append, List.length_take, List.length_replicate]; omega
  by_cases h1 : k < off
  · rw [if_pos h1, List.append_assoc, List.getElem?_append_left (by omega), List.getElem?_take, if_pos h1]
    by_cases h2 : k < c.length
    · rw [if_pos h2, List.getElem?_append_left h2]
    · rw [if_neg h2, List.getElem?_append_right (by omega), List.getElem?_replicate, if_pos (by omega)]
  · rw [if_neg h1]
    by_cases h2 : k < off + b.length
    · rw [if_pos h2, List.append_assoc, List.getElem?_append_right (by omega), hl, List.getElem?_append_left (by omega)]
    · rw [if_neg h2, List.getElem?_append_right (by rw [List.length_append]; omega), List.length_append, hl, List.getElem?_drop]
      congr 1; omega

theorem assembled_nil : Assembled [] [] :=
  ⟨by intro a p b k h; simp at h, by simp, by simp⟩

theorem assembled_snoc {ps : List Part} {c : List UInt8} (h : Assembled ps c) (p : Part) : Assembled (ps ++ [p]) (writeAt c p.1 p.2) := by
  by_cases hb : p.2 = []
  · have hw : writeAt c p.1 p.2 = c := by unfold writeAt; rw [if_pos hb]
    have hnc : ∀ k, ¬ p.covers k := by intro k ⟨h1, h2⟩; rw [hb] at h2; simp at h2; omega
    rw [hw]
    refine ⟨?_, ?_, ?_⟩
    · intro a q b k e hq hno
      rcases List.eq_nil_or_concat b with rfl | ⟨b', x, rfl⟩
      · have := List.append_inj_right' e (by simp)
        injection this with this; subst this
        exact absurd hq (hnc k)
      · have e' : ps ++ [p] = (a ++ q :: b') ++ [x] := by rw [e]; simp
        have e1 := List.append_inj_left' e' (by simp)
        exact h.byte a q b' k e1 hq (fun y hy => hno y (by simp [hy]))
    · intro k hk hno; exact h.gap k hk (fun q hq => hno q (by simp [hq]))
    · intro n
      rw [h.size]
      constructor
      · intro h1 q hq hne
        rcases List.mem_append.mp hq with hq | hq
        · exact h1 q hq hne
        · rw [List.mem_singleton] at hq; subst hq; exact absurd hb hne
      · intro h1 q hq; exact h1 q (by simp [hq])
  · refine ⟨?_, ?_, ?_⟩
    · intro a q b k e hq hno
      rw [writeAt_get c p.1 p.2 hb]
      rcases List.eq_nil_or_concat b with rfl | ⟨b', x, rfl⟩
      · have := List.append_inj_right' e (by simp)
        injection this with this; subst this
        rw [if_neg (by have := hq.1; omega), if_pos hq.2]
      · have e' : ps ++ [p] = (a ++ q :: b') ++ [x] := by rw [e]; simp
        have e1 := List.append_inj_left' e' (by simp)
        have e2 := List.append_inj_right' e' (by simp)
        injection e2 with e2; subst e2
        have hp := hno p (by simp)
        have hq' := h.byte a q b' k e1 hq (fun y hy => hno y (by simp [hy]))
        have hkl : k < c.length := by
          have hqn : q.2 ≠ [] := by intro hz; have := hq.2; rw [hz] at this; have := hq.1; simp at *; omega
          have := (h.size c.length).mp (Nat.le_refl _) q (by rw [e1]; simp) hqn
          have := hq.2; omega
        have hnp : k < p.1 ∨ p.1 + p.2.length ≤ k := by
          by_cases hlt : k < p.1
          · exact .inl hlt
          · right; exact Nat.le_of_not_lt (fun hh => hp ⟨by omega, hh⟩)
        rcases hnp with h1 | h1
        · rw [if_pos h1, if_pos hkl, hq']
        · rw [if_neg (by omega), if_neg (by omega), hq']
    · intro k hk hno
      rw [writeAt_length c _ _ hb] at hk
      rw [writeAt_get c p.1 p.2 hb]
      have hp := hno p (by simp)
      have hg := h.gap k
      by_cases h1 : k < p.1
      · rw [if_pos h1]
        by_cases h2 : k < c.length
        · rw [if_pos h2]; exact hg h2 (fun q hq => hno q (by simp [hq]))
        · rw [if_neg h2]
      · have h2 : ¬ k < p.1 + p.2.length := fun hh => hp ⟨by omega, hh⟩
        rw [if_neg h1, if_neg h2]
        exact hg (by omega) (fun q hq => hno q (by simp [hq]))
    · intro n
      rw [writeAt_length c _ _ hb]
      constructor
      · intro h1 q hq hne
        rcases List.mem_append.mp hq with hq | hq
        · exact (h.size n).mp (by omega) q hq hne
        · rw [List.mem_singleton] at hq; subst hq; omega
      · intro h1
        have := (h.size n).mpr (fun q hq => h1 q (by simp [hq]))
        have := h1 p (by simp) hb
        omega

theorem copyData_spec : ∀ (blocks : List Block) (ps : List Part) (c : List UInt8), Assembled ps c →
    ((copyData blocks c).2 = true ↔ Sound blocks) ∧ ((copyData blocks c).2 = true → Assembled (ps ++ partsOf blocks) (copyData blocks c).1) := by
  intro blocks
  induction blocks with
  | nil => intro ps c h; exact ⟨by simp [copyData, Sound], fun _ => by simpa [copyData, partsOf] using h⟩
  | cons b r ih =>
    intro ps c h
    cases b with
    | error =>
      refine ⟨?_, by simp [copyData]⟩
      simp only [copyData, Bool.false_eq_true, false_iff]
      intro hs
      obtain ⟨off, bytes, e⟩ := hs .error (by simp)
      cases e
    | data off bytes written =>
      cases written with
      | false =>
        refine ⟨?_, by simp [copyData]⟩
        simp only [copyData, Bool.false_eq_true, if_false, false_iff]
        intro hs
        obtain ⟨off', bytes', e⟩ := hs (.data off bytes false) (by simp)
        cases e
      | true =>
        have h1 := assembled_snoc h (off, bytes)
        obtain ⟨i1, i2⟩ := ih (ps ++ [(off, bytes)]) (writeAt c off bytes) h1
        simp only [copyData, if_true]
        refine ⟨?_, ?_⟩
        · rw [i1]
          constructor
          · intro hs b hb
            rcases List.mem_cons.mp hb with rfl | hb
            · exact ⟨off, bytes, rfl⟩
            · exact hs b hb
          · intro hs b hb; exact hs b (by simp [hb])
        · intro hok
          have := i2 hok
          simpa [partsOf] using this

theorem setFile_same (fs : String → Option (List UInt8)) (p : String) (c : Option (List UInt8)) : setFile fs p c p = c := by simp [setFile]

theorem setFile_other (fs : String → Option (List UInt8)) {p q : String} (c : Option (List UInt8)) (h : q ≠ p) : setFile fs p c q = fs q := by simp [setFile, h]

theorem setFile_undo (fs : String → Option (List UInt8)) (p : String) (c : Option (List UInt8)) (h : fs p = none) : setFile (setFile fs p c) p none = fs := by
  funext q
  by_cases hq : q = p
  · subst hq; rw [setFile_same, h]
  · rw [setFile_other _ _ hq, setFile_other _ _ hq]

theorem extract_ok {w : World} {st st' : St} {opened : Bool} {blocks : List Block} {p : String} (h : extractMember w st opened blocks = (some p, st')) :
    w.mkstemp st.files = some p ∧ opened = true ∧ (copyData blocks []).2 = true ∧
      st' = ⟨setFile (setFile st.files p (some [])) p (some (copyData blocks []).1), st.umask, st.handles - 2⟩ := by
  unfold extractMember at h
  cases hm : w.mkstemp st.files with
  | none => simp [hm] at h
  | some t =>
    simp only [hm] at h
    cases opened with
    | false => simp at h
    | true =>
      cases hc : (copyData blocks []).2 with
      | false => simp [hc] at h
      | true =>
        simp only [hc, if_true, Prod.mk.injEq, Option.some.injEq] at h
        obtain ⟨rfl, rfl⟩ := h
        exact ⟨rfl, rfl, rfl, rfl⟩

theorem extract_none {w : World} (hw : w.Fresh) {st st' : St} {opened : Bool} {blocks : List Block} (h : extractMember w st opened blocks = (none, st')) :
    st'.files = st.files ∧ st'.handles = st.handles ∧ (w.mkstemp st.files ≠ none → st'.umask = st.umask) ∧
      (w.mkstemp st.files = none ∨ opened = false ∨ (copyData blocks []).2 = false) := by
  unfold extractMember at h
  cases hm : w.mkstemp st.files with
  | none =>
    simp only [hm, Prod.mk.injEq, true_and] at h
    subst h
    exact ⟨rfl, rfl, fun hn => absurd rfl hn, .inl rfl⟩
  | some t =>
    simp only [hm] at h
    have hf := hw _ _ hm
    cases opened with
    | false =>
      simp only [Bool.false_eq_true, if_false, Prod.mk.injEq, true_and] at h
      subst h
      exact ⟨setFile_undo _ _ _ hf, rfl, fun _ => rfl, .inr (.inl rfl)⟩
    | true =>
      cases hc : (copyData blocks []).2 with
      | true => simp [hc] at h
      | false =>
        simp only [hc, if_true, Bool.false_eq_true, if_false, Prod.mk.injEq, true_and] at h
        subst h
        exact ⟨setFile_undo _ _ _ hf, rfl, fun _ => rfl, .inr (.inr rfl)⟩

theorem find_skip {w : World} {st : St} {sub : String} {opened : Bool} {blocks : List Block} {rest : List Item} : ∀ {pre : List Item}, Passed sub pre →
    findMember w st sub (pre ++ .member sub opened blocks :: rest) = extractMember w st opened blocks
  | [], _ => by simp [findMember]
  | i :: r, h => by
    obtain ⟨n, o, b, e, hn⟩ := h i (by simp)
    subst e
    rw [List.cons_append, findMember, if_neg (fun e => hn e.symm)]
    exact find_skip (fun j hj => h j (by simp [hj]))

/-- Either the member is found, behind members of other names, or it is not. -/
theorem find_cases (w : World) (st : St) (sub : String) : ∀ items : List Item,
    (∃ pre opened blocks rest, items = pre ++ .member sub opened blocks :: rest ∧ Passed sub pre) ∨ findMember w st sub items = (none, st) := by
  intro items
  induction items with
  | nil => exact .inr rfl
  | cons i r ih =>
    cases i with
    | error => exact .inr rfl
    | member n o b =>
      by_cases hn : sub = n
      · subst hn
        exact .inl ⟨[], o, b, r, rfl, by simp [Passed]⟩
      · rcases ih with ⟨pre, o', b', rest, rfl, hp⟩ | h
        · refine .inl ⟨.member n o b :: pre, o', b', rest, rfl, ?_⟩
          intro j hj
          rcases List.mem_cons.mp hj with rfl | hj
          · exact ⟨n, o, b, rfl, fun e => hn e.symm⟩
          · exact hp j hj
        · right; rw [findMember, if_neg hn, h]

theorem first_unique {sub : String} {o o' : Bool} {b b' : List Block} {rest rest' : List Item} : ∀ {pre pre' : List Item}, Passed sub pre → Passed sub pre' →
    pre ++ .member sub o b :: rest = pre' ++ .member sub o' b' :: rest' → b = b'
  | [], [], _, _, e => by simp at e; exact e.1.2
  | [], j :: r, _, h2, e => by
    obtain ⟨n, o1, b1, rfl, hn⟩ := h2 j (by simp)
    simp at e; exact absurd e.1.1.symm hn
  | i :: r, [], h1, _, e => by
    obtain ⟨n, o1, b1, rfl, hn⟩ := h1 i (by simp)
    simp at e; exact absurd e.1.1 hn
  | i :: r, j :: r', h1, h2, e => by
    simp only [List.cons_append, List.cons.injEq] at e
    exact first_unique (fun x hx => h1 x (by simp [hx])) (fun x hx => h2 x (by simp [hx])) e.2

theorem last_cover (k : Nat) : ∀ ps : List Part, (∃ a p b, ps = a ++ p :: b ∧ p.covers k ∧ ∀ q ∈ b, ¬ q.covers k) ∨ ∀ p ∈ ps, ¬ p.covers k := by
  intro ps
  induction ps with
  | nil => exact .inr (by simp)
  | cons x r ih =>
    rcases ih with ⟨a, p, b, rfl, h1, h2⟩ | h
    · exact .inl ⟨x :: a, p, b, rfl, h1, h2⟩
    · by_cases hx : x.covers k
      · exact .inl ⟨[], x, r, rfl, hx, h⟩
      · right
        intro p hp
        rcases List.mem_cons.mp hp with rfl | hp
        · exact hx
        · exact h p hp

theorem assembled_unique {ps : List Part} {c d : List UInt8} (h1 : Assembled ps c) (h2 : Assembled ps d) : c = d := by
  have hl : c.length = d.length :=
    Nat.le_antisymm ((h1.size _).mpr ((h2.size _).mp (Nat.le_refl _))) ((h2.size _).mpr ((h1.size _).mp (Nat.le_refl _)))
  apply List.ext_getElem?
  intro k
  rcases last_cover k ps with ⟨a, p, b, e, hp, hb⟩ | h
  · rw [h1.byte a p b k e hp hb, h2.byte a p b k e hp hb]
  · by_cases hk : k < c.length
    · rw [h1.gap k hk h, h2.gap k (by omega) h]
    · rw [List.getElem?_eq_none (by omega), List.getElem?_eq_none (by omega)]

end Verif.Archive
