import Verif.Config.Getopt

/-!
# Lemmas about the option scanner
-/

namespace Verif.Config

/-- What the option scanner needs of its table: names that are not empty, have no equals sign and are distinct, and characters that are no dash and distinct. -/
structure Sane (tbl : List OptDef) : Prop where
  name_ne : ∀ d ∈ tbl, d.name ≠ []
  name_eq : ∀ d ∈ tbl, '=' ∉ d.name
  name_inj : ∀ d ∈ tbl, ∀ e ∈ tbl, d.name = e.name → d = e
  ch_ne : ∀ d ∈ tbl, d.ch ≠ '-'
  ch_inj : ∀ d ∈ tbl, ∀ e ∈ tbl, d.ch = e.ch → d = e

/-- A flag of the table. -/
def Flag (tbl : List OptDef) (d : OptDef) : Prop := d ∈ tbl ∧ d.hasArg = false

/-- An option of the table that takes an argument. -/
def Takes (tbl : List OptDef) (d : OptDef) : Prop := d ∈ tbl ∧ d.hasArg = true

/-- The tokens of flags. -/
def flagToks (fs : List OptDef) : List Tok := fs.map (fun d => Tok.opt d.ch [])

/-- The characters of options. -/
def chs (fs : List OptDef) : Word := fs.map (·.ch)

/-- A longer run of the scanner gives the same. -/
theorem getopt_mono (tbl : List OptDef) (n m : Nat) (p : Word) (ws : List Word) (r : List Tok × List Word) (hnm : n ≤ m)
    (h : getopt tbl n p ws = .ok r) : getopt tbl m p ws = .ok r := by
  induction n generalizing m p ws r with
  | zero => cases p <;> cases ws <;> simp [getopt] at h
  | succ n ih =>
    obtain ⟨m, rfl⟩ : ∃ k, m = k + 1 := ⟨m - 1, by omega⟩
    have hnm : n ≤ m := by omega
    cases p with
    | cons c p =>
      rw [getopt] at h ⊢
      revert h
      rcases shortOpt tbl c p ws with ⟨t, p', ws'⟩
      cases t with
      | bad => exact id
      | opt o a =>
        intro h
        dsimp only at h ⊢
        obtain ⟨r', h1, h2⟩ := Res.bind_eq_ok.mp h
        rw [ih m _ _ _ hnm h1]
        exact h2
    | nil =>
      cases ws with
      | nil => simpa [getopt] using h
      | cons w ws =>
        rw [getopt.eq_def] at h ⊢
        dsimp only at h ⊢
        split at h
        · exact h
        · rename_i c p
          revert h
          rcases longOpt tbl (c :: p) ws with ⟨t, ws'⟩
          cases t with
          | bad => exact id
          | opt o a =>
            intro h
            dsimp only at h ⊢
            obtain ⟨r', h1, h2⟩ := Res.bind_eq_ok.mp h
            rw [ih m _ _ _ hnm h1]
            exact h2
        · exact h
        · exact ih m _ _ _ hnm h
        · exact h

/-- What is read does not depend on how many calls are allowed. -/
theorem getopt_det {tbl : List OptDef} {n m : Nat} {p : Word} {ws : List Word} {r s : List Tok × List Word}
    (h : getopt tbl n p ws = .ok r) (h' : getopt tbl m p ws = .ok s) : r = s := by
  have h1 := getopt_mono tbl n (max n m) p ws r (by omega) h
  have h2 := getopt_mono tbl m (max n m) p ws s (by omega) h'
  rw [h1] at h2
  exact Res.ok.inj h2

/-- The words behind a long option are a tail of those there were. -/
theorem longOpt_suffix (tbl : List OptDef) (p : Word) (ws : List Word) : (longOpt tbl p ws).2 <:+ ws := by
  rw [longOpt.eq_def]
  split
  · exact List.suffix_refl _
  · split <;> first | exact List.suffix_refl _ | exact List.suffix_cons _ _

theorem shortOpt_suffix (tbl : List OptDef) (c : Char) (p : Word) (ws : List Word) :
    (shortOpt tbl c p ws).2.2 <:+ ws ∧ (shortOpt tbl c p ws).2.1.length ≤ p.length := by
  rw [shortOpt.eq_def]
  split
  · exact ⟨List.suffix_refl _, Nat.le_refl _⟩
  · split <;> simp

/-- The size of a list of words. -/
def cost (ws : List Word) : Nat := (ws.map (fun w => w.length + 1)).sum

theorem cost_suffix {a b : List Word} (h : a <:+ b) : cost a ≤ cost b := by
  obtain ⟨c, rfl⟩ := h
  simp [cost]

/-- The scanner ends. -/
theorem getopt_ends (tbl : List OptDef) (n : Nat) (p : Word) (ws : List Word) (h : p.length + cost ws + 1 ≤ n) : ∃ r, getopt tbl n p ws = .ok r := by
  induction n generalizing p ws with
  | zero => omega
  | succ n ih =>
    cases p with
    | cons c p =>
      rw [getopt]
      have hs := shortOpt_suffix tbl c p ws
      revert hs
      rcases shortOpt tbl c p ws with ⟨t, p', ws'⟩
      rintro ⟨h1, h2⟩
      have h1 := cost_suffix h1
      simp only [List.length_cons] at h h2
      dsimp only at h1
      cases t with
      | bad => exact ⟨_, rfl⟩
      | opt o a =>
        obtain ⟨r, hr⟩ := ih p' ws' (by omega)
        exact ⟨_, by dsimp only; rw [hr]; rfl⟩
    | nil =>
      cases ws with
      | nil => exact ⟨_, rfl⟩
      | cons w ws =>
        have hc : cost (w :: ws) = w.length + 1 + cost ws := by simp [cost]
        rw [hc] at h
        rw [getopt.eq_def]
        dsimp only
        split
        · exact ⟨_, rfl⟩
        · rename_i c p
          have h1 := cost_suffix (longOpt_suffix tbl (c :: p) ws)
          revert h1
          rcases longOpt tbl (c :: p) ws with ⟨t, ws'⟩
          intro h1
          dsimp only at h1
          cases t with
          | bad => exact ⟨_, rfl⟩
          | opt o a =>
            obtain ⟨r, hr⟩ := ih [] ws' (by simp only [List.length_nil]; omega)
            exact ⟨_, by dsimp only; rw [hr]; rfl⟩
        · exact ⟨_, rfl⟩
        · exact ih _ _ (by simp only [List.length_cons] at h ⊢; omega)
        · exact ⟨_, rfl⟩

/-- The scanner reads these words like that, with enough calls. -/
def Reads (tbl : List OptDef) (p : Word) (ws : List Word) (r : List Tok × List Word) : Prop := ∃ n, getopt tbl n p ws = .ok r

theorem Reads.calls {tbl : List OptDef} {ws : List Word} {r : List Tok × List Word} (h : Reads tbl [] ws r) : getopt tbl (calls ws) [] ws = .ok r := by
  obtain ⟨n, hn⟩ := h
  obtain ⟨s, hs⟩ := getopt_ends tbl (Config.calls ws) [] ws (by simp [Config.calls, cost])
  rw [hs, getopt_det hn hs]

theorem find_ch {tbl : List OptDef} (hs : Sane tbl) {d : OptDef} (hd : d ∈ tbl) : tbl.find? (fun e => e.ch == d.ch) = some d := by
  cases hf : tbl.find? (fun e => e.ch == d.ch) with
  | none =>
    have := List.find?_eq_none.mp hf d hd
    simp at this
  | some e =>
    have h1 := List.mem_of_find?_eq_some hf
    have h2 := List.find?_some hf
    rw [hs.ch_inj e h1 d hd (by simpa using h2)]

theorem named_iff (d : OptDef) (p : Word) : d.named p = true ↔ p = d.name ∨ ∃ a, p = d.name ++ '=' :: a := by
  simp only [OptDef.named, Bool.and_eq_true, List.isPrefixOf_iff_prefix, Bool.or_eq_true, beq_iff_eq]
  constructor
  · rintro ⟨⟨q, rfl⟩, h⟩
    rw [List.drop_left] at h
    rcases h with h | h
    · exact Or.inl (by simp [h])
    · cases q with
      | nil => simp at h
      | cons c q => simp at h; exact Or.inr ⟨q, by rw [h]⟩
  · rintro (rfl | ⟨a, rfl⟩)
    · simp
    · simp

/-- Two names followed by an equals sign or the end are the same name. -/
theorem named_unique {tbl : List OptDef} (hs : Sane tbl) {d e : OptDef} (hd : d ∈ tbl) (he : e ∈ tbl) {p : Word} (h1 : d.named p = true) (h2 : e.named p = true) : d = e := by
  apply hs.name_inj d hd e he
  have hD := hs.name_eq d hd
  have hE := hs.name_eq e he
  have key : ∀ (x y : Word) (a : Word), '=' ∉ x → '=' ∉ y → ∀ b, x ++ '=' :: a = y ++ '=' :: b → x = y := by
    intro x
    induction x with
    | nil =>
      intro y a _ hy b h
      cases y with
      | nil => rfl
      | cons c y =>
        simp only [List.nil_append, List.cons_append, List.cons.injEq] at h
        exact absurd (by rw [h.1]; exact List.mem_cons_self) hy
    | cons u x ih =>
      intro y a hx hy b h
      cases y with
      | nil =>
        simp only [List.nil_append, List.cons_append, List.cons.injEq] at h
        exact absurd (by rw [← h.1]; exact List.mem_cons_self) hx
      | cons c y =>
        simp only [List.cons_append, List.cons.injEq] at h
        rw [h.1, ih y a (fun k => hx (List.mem_cons_of_mem _ k)) (fun k => hy (List.mem_cons_of_mem _ k)) b h.2]
  rcases (named_iff d p).mp h1 with r1 | ⟨a, r1⟩ <;> rcases (named_iff e p).mp h2 with r2 | ⟨b, r2⟩
  · rw [← r1, ← r2]
  · exact absurd (by rw [← r1, r2]; simp) hD
  · exact absurd (by rw [← r2, r1]; simp) hE
  · exact key _ _ a hD hE b (r1.symm.trans r2)

theorem find_named {tbl : List OptDef} (hs : Sane tbl) {d : OptDef} (hd : d ∈ tbl) {p : Word} (h : d.named p = true) : tbl.find? (·.named p) = some d := by
  cases hf : tbl.find? (·.named p) with
  | none => exact absurd h (List.find?_eq_none.mp hf d hd)
  | some e => rw [named_unique hs (List.mem_of_find?_eq_some hf) hd (by simpa using List.find?_some hf) h]

/-! ## What is read first -/

theorem reads_long {tbl : List OptDef} {p : Word} {ws : List Word} {o : Char} {a : Word} {ws' : List Word} {r : List Tok × List Word} (hp : p ≠ [])
    (h : longOpt tbl p ws = (.opt o a, ws')) (hr : Reads tbl [] ws' r) : Reads tbl [] (('-' :: '-' :: p) :: ws) (.opt o a :: r.1, r.2) := by
  obtain ⟨n, hn⟩ := hr
  cases p with
  | nil => exact absurd rfl hp
  | cons c p =>
    refine ⟨n + 1, ?_⟩
    have : getopt tbl (n + 1) [] (('-' :: '-' :: c :: p) :: ws) = (match longOpt tbl (c :: p) ws with
        | (.bad, ws) => .ok ([.bad], ws)
        | (t, ws) => do
          let r ← getopt tbl n [] ws
          .ok (t :: r.1, r.2)) := rfl
    rw [this, h]
    dsimp only
    rw [hn]
    rfl

theorem reads_short {tbl : List OptDef} {c : Char} {p p' : Word} {ws ws' : List Word} {o : Char} {a : Word} {r : List Tok × List Word}
    (h : shortOpt tbl c p ws = (.opt o a, p', ws')) (hr : Reads tbl p' ws' r) : Reads tbl (c :: p) ws (.opt o a :: r.1, r.2) := by
  obtain ⟨n, hn⟩ := hr
  refine ⟨n + 1, ?_⟩
  rw [getopt, h]
  dsimp only
  rw [hn]
  rfl

theorem reads_run {tbl : List OptDef} {c : Char} {p : Word} {ws : List Word} {r : List Tok × List Word} (hc : c ≠ '-') (hr : Reads tbl (c :: p) ws r) :
    Reads tbl [] (('-' :: c :: p) :: ws) r := by
  obtain ⟨n, hn⟩ := hr
  refine ⟨n + 1, ?_⟩
  rw [getopt.eq_def]
  dsimp only
  split
  · rename_i h; simp at h; exact absurd h.1 hc
  · rename_i h; simp at h; exact absurd h.1 hc
  · rename_i h; simp at h
  · rename_i h; simp at h; rw [← h.1, ← h.2]; exact hn
  · rename_i h1 h2 h3; exact absurd rfl (h3 c p)

theorem reads_flags {tbl : List OptDef} (hs : Sane tbl) (fs : List OptDef) (hf : ∀ d ∈ fs, Flag tbl d) {p : Word} {ws : List Word} {r : List Tok × List Word}
    (hr : Reads tbl p ws r) : Reads tbl (chs fs ++ p) ws (flagToks fs ++ r.1, r.2) := by
  induction fs with
  | nil => exact hr
  | cons d fs ih =>
    have hd := hf d List.mem_cons_self
    refine reads_short (p' := chs fs ++ p) (ws' := ws) (r := (flagToks fs ++ r.1, r.2)) ?_ (ih (fun e he => hf e (List.mem_cons_of_mem _ he)))
    rw [shortOpt, find_ch hs hd.1]
    dsimp only
    rw [hd.2]
    rfl

/-- A run of short options starts with a character that is no dash. -/
theorem run_start {tbl : List OptDef} (hs : Sane tbl) (fs : List OptDef) (hf : ∀ d ∈ fs, Flag tbl d) {p : Word} {ws : List Word} {r : List Tok × List Word}
    (hp : chs fs ++ p ≠ []) (hp' : p.head? ≠ some '-') (hr : Reads tbl (chs fs ++ p) ws r) : Reads tbl [] (('-' :: (chs fs ++ p)) :: ws) r := by
  cases fs with
  | nil =>
    cases p with
    | nil => exact absurd rfl hp
    | cons c p => exact reads_run (by simpa using hp') hr
  | cons d fs => exact reads_run (hs.ch_ne d (hf d List.mem_cons_self).1) hr

end Verif.Config
