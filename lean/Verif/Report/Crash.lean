import Verif.Report.Disk

/-!
# When exactly the loop over a class breaks off: lemmas for `Report/CrashProps.lean`
-/

namespace Verif.Report

variable {η : Type} [DecidableEq η] {κ : Type} [DecidableEq κ]

/-- The comparison of `f` with `g` returns, and says equal exactly if the keys agree. -/
def Decides (w : World η) (key : FileEnt → κ) (f g : FileEnt) : Prop := ∀ r0, ∃ o v, w.fc f g r0 = .ok (o, v) ∧ ((o = true ∧ v = 0) ↔ key f = key g)

/-- The entries after the duplicates of `f` have been marked. -/
def marked (key : FileEnt → κ) (f : FileEnt) (h : η) (e : Entry η) : Entry η :=
  match e.file with
  | some g => if e.hash = h ∧ key f = key g then { e with file := none } else e
  | none => e

theorem marked_hash (key : FileEnt → κ) (f : FileEnt) (h : η) (e : Entry η) : (marked key f h e).hash = e.hash := by
  unfold marked; split
  · split <;> rfl
  · rfl

theorem inner_total (w : World η) (json : Bool) (key : FileEnt → κ) (f : FileEnt) (h : η) (tail : List (Entry η)) (ht : ∀ e ∈ tail, e.hash ≠ h) :
    ∀ (run : List (Entry η)) (r : Int), (∀ e ∈ run, e.hash = h) → (∀ e ∈ run, ∀ g, e.file = some g → Decides w key f g) →
      ((∃ e ∈ run, e.file = none) → inner w json f h (run ++ tail) r = .ub) ∧
      ((∀ e ∈ run, e.file.isSome) → ∃ x, inner w json f h (run ++ tail) r = .ok x ∧ x.rest = (run ++ tail).map (marked key f h)) := by
  have htail : tail.map (marked key f h) = tail := by
    conv => rhs; rw [← List.map_id tail]
    apply List.map_congr_left
    intro e he
    unfold marked
    split
    · rw [if_neg (fun hh => ht e he hh.1)]; rfl
    · rfl
  intro run
  induction run with
  | nil =>
    intro r _ _
    refine ⟨fun ⟨e, he, _⟩ => (List.not_mem_nil he).elim, fun _ => ?_⟩
    cases tail with
    | nil => exact ⟨_, rfl, rfl⟩
    | cons e es =>
      have : ¬ h = e.hash := fun hh => ht e List.mem_cons_self hh.symm
      simp only [List.nil_append, inner, this, if_false, htail]
      exact ⟨_, rfl, rfl⟩
  | cons e run ih =>
    intro r hr hd
    have he := hr e List.mem_cons_self
    cases hf : e.file with
    | none =>
      refine ⟨fun _ => ?_, fun hs => ?_⟩
      · simp [inner, he, hf]
      · have := hs e List.mem_cons_self; rw [hf] at this; cases this
    | some g =>
      obtain ⟨o, v, e1, e2⟩ := hd e List.mem_cons_self g hf (if json then r else 0)
      have hih := fun r' => ih r' (fun e' he' => hr e' (List.mem_cons_of_mem _ he')) (fun e' he' => hd e' (List.mem_cons_of_mem _ he'))
      have hv0 : (if o = true then v else (1 : Int)) = 0 ↔ key f = key g := by
        rw [← e2]; cases o <;> simp
      generalize hvv : (if o = true then v else (1 : Int)) = v' at hv0
      obtain ⟨u1, u2⟩ := hih v'
      simp only [List.cons_append, inner, he, if_true, hf, e1, Res.ok_bind, hvv]
      constructor
      · rintro ⟨e', he', hn⟩
        rcases List.mem_cons.1 he' with rfl | he'
        · rw [hf] at hn; cases hn
        · rw [u1 ⟨e', he', hn⟩]; split <;> simp
      · intro hs
        obtain ⟨x, x1, x2⟩ := u2 (fun e' he' => hs e' (List.mem_cons_of_mem _ he'))
        rw [x1]
        by_cases hk : key f = key g
        · rw [if_pos (hv0.2 hk)]
          refine ⟨_, rfl, ?_⟩
          simp only [List.map_cons, x2, marked, hf, he, hk, and_self, if_true]
        · rw [if_neg (fun hh => hk (hv0.1 hh))]
          refine ⟨_, rfl, ?_⟩
          simp only [List.map_cons, x2, marked, hf, he, hk, and_false, if_false]

/-- Between two identical files stands another one with their digest, in this order of the entries. -/
def Split (key : FileEnt → κ) (es : List (Entry η)) : Prop :=
  ∃ a b c, [a, b, c].Sublist es ∧ a.hash = b.hash ∧ b.hash = c.hash ∧ ∃ f g k, a.file = some f ∧ b.file = some g ∧ c.file = some k ∧ key f = key k ∧ key f ≠ key g

/-- A file that is not marked stands before a marked one with its digest. -/
def Stale (es : List (Entry η)) : Prop := ∃ a c, [a, c].Sublist es ∧ a.hash = c.hash ∧ a.file.isSome ∧ c.file = none

theorem stale_cons {e : Entry η} {es : List (Entry η)} : Stale (e :: es) ↔ Stale es ∨ (e.file.isSome ∧ ∃ c ∈ es, e.hash = c.hash ∧ c.file = none) := by
  constructor
  · rintro ⟨a, c, hs, h1, h2, h3⟩
    rcases List.sublist_cons_iff.1 hs with hs | ⟨r, hr, hs⟩
    · exact .inl ⟨a, c, hs, h1, h2, h3⟩
    · obtain ⟨rfl, rfl⟩ := List.cons.inj hr
      exact .inr ⟨h2, c, List.singleton_sublist.1 hs, h1, h3⟩
  · rintro (⟨a, c, hs, h⟩ | ⟨h2, c, hc, h1, h3⟩)
    · exact ⟨a, c, hs.cons _, h⟩
    · exact ⟨e, c, (List.singleton_sublist.2 hc).cons_cons _, h1, h2, h3⟩

theorem split_cons {key : FileEnt → κ} {e : Entry η} {es : List (Entry η)} : Split key (e :: es) ↔ Split key es ∨
    ∃ b c, [b, c].Sublist es ∧ e.hash = b.hash ∧ b.hash = c.hash ∧ ∃ f g k, e.file = some f ∧ b.file = some g ∧ c.file = some k ∧ key f = key k ∧ key f ≠ key g := by
  constructor
  · rintro ⟨a, b, c, hs, h⟩
    rcases List.sublist_cons_iff.1 hs with hs | ⟨r, hr, hs⟩
    · exact .inl ⟨a, b, c, hs, h⟩
    · obtain ⟨rfl, rfl⟩ := List.cons.inj hr
      exact .inr ⟨b, c, hs, h⟩
  · rintro (⟨a, b, c, hs, h⟩ | ⟨b, c, hs, h⟩)
    · exact ⟨a, b, c, hs.cons _, h⟩
    · exact ⟨e, b, c, hs.cons_cons _, h⟩

theorem marked_cases (key : FileEnt → κ) (f : FileEnt) (h : η) (e : Entry η) :
    (marked key f h e = e ∧ ¬ (e.hash = h ∧ ∃ g, e.file = some g ∧ key f = key g)) ∨
    ((marked key f h e).file = none ∧ e.hash = h ∧ ∃ g, e.file = some g ∧ key f = key g) := by
  unfold marked
  cases hf : e.file with
  | none => left; refine ⟨rfl, fun ⟨_, g, hg, _⟩ => by cases hg⟩
  | some g =>
    by_cases hc : e.hash = h ∧ key f = key g
    · right; simp only [if_pos hc]; exact ⟨trivial, hc.1, g, rfl, hc.2⟩
    · left; simp only [if_neg hc]
      refine ⟨trivial, ?_⟩
      rintro ⟨h1, g', hg, h2⟩
      obtain rfl := Option.some.inj hg
      exact hc ⟨h1, h2⟩

/-- What one turn of the outer loop does to the two conditions. -/
theorem turn {key : FileEnt → κ} {e : Entry η} {f : FileEnt} {es : List (Entry η)} (hf : e.file = some f) :
    (Stale (e :: es) ∨ Split key (e :: es)) ↔
      (∃ c ∈ es, e.hash = c.hash ∧ c.file = none) ∨ (Stale (es.map (marked key f e.hash)) ∨ Split key (es.map (marked key f e.hash))) := by
  rw [stale_cons, split_cons]
  have mh := marked_hash key f e.hash (η := η)
  constructor
  · by_cases hnone : ∃ c ∈ es, e.hash = c.hash ∧ c.file = none
    · exact fun _ => .inl hnone
    intro h
    right
    rcases h with (hst | ⟨_, hn⟩) | (hsp | ⟨b, c, hs, h1, h2, f', g, k, hf', hg, hk, hfk, hfg⟩)
    · obtain ⟨a, c, hs, h1, h2, h3⟩ := hst
      left
      refine ⟨_, _, hs.map _, by rw [mh, mh, h1], ?_, ?_⟩
      · rcases marked_cases key f e.hash a with ⟨ea, _⟩ | ⟨_, ha, _⟩
        · rw [ea]; exact h2
        · exact absurd ⟨c, hs.subset (by simp), by rw [← h1, ha], h3⟩ hnone
      · rcases marked_cases key f e.hash c with ⟨ec, _⟩ | ⟨ec, _⟩
        · rw [ec]; exact h3
        · exact ec
    · exact absurd hn hnone
    · obtain ⟨a, b, c, hs, h1, h2, f', g, k, hf', hg, hk, hfk, hfg⟩ := hsp
      rcases marked_cases key f e.hash b with ⟨eb, nb⟩ | ⟨mb, hb, gb, egb, kb⟩
      · rcases marked_cases key f e.hash a with ⟨ea, na⟩ | ⟨ma, ha, ga, ega, ka⟩
        · have ec : marked key f e.hash c = c := by
            rcases marked_cases key f e.hash c with ⟨ec, _⟩ | ⟨_, hc, gc, egc, kc⟩
            · exact ec
            · rw [hk] at egc
              obtain rfl := Option.some.inj egc
              exact absurd ⟨by rw [h1, h2, hc], f', hf', by rw [kc, hfk]⟩ na
          right
          have hm := hs.map (marked key f e.hash)
          simp only [List.map_cons, List.map_nil, ea, eb, ec] at hm
          exact ⟨a, b, c, hm, h1, h2, f', g, k, hf', hg, hk, hfk, hfg⟩
        · -- `a` and `c` are marked, `b` is not
          rw [hf'] at ega
          obtain rfl := Option.some.inj ega
          left
          have hs2 : [b, c].Sublist es := (List.sublist_cons_self a [b, c]).trans hs
          refine ⟨_, _, hs2.map _, by rw [mh, mh, h2], by rw [eb, hg]; rfl, ?_⟩
          rcases marked_cases key f e.hash c with ⟨_, nc⟩ | ⟨ec, _⟩
          · exact absurd ⟨by rw [← h2, ← h1, ha], k, hk, by rw [ka, hfk]⟩ nc
          · exact ec
      · -- `b` is marked, `a` is not
        rw [hg] at egb
        obtain rfl := Option.some.inj egb
        left
        have hs2 : [a, b].Sublist es := by
          refine List.Sublist.trans ?_ hs
          exact List.Sublist.cons_cons _ (List.Sublist.cons_cons _ (List.nil_sublist _))
        refine ⟨_, _, hs2.map _, by rw [mh, mh, h1], ?_, mb⟩
        rcases marked_cases key f e.hash a with ⟨ea, _⟩ | ⟨_, _, ga, ega, ka⟩
        · rw [ea, hf']; rfl
        · rw [hf'] at ega
          obtain rfl := Option.some.inj ega
          exact absurd (by rw [← ka, kb]) hfg
    · rw [hf] at hf'
      obtain rfl := Option.some.inj hf'
      left
      refine ⟨_, _, hs.map _, by rw [mh, mh, h2], ?_, ?_⟩
      · rcases marked_cases key f e.hash b with ⟨eb, _⟩ | ⟨_, _, gb, egb, kb⟩
        · rw [eb, hg]; rfl
        · rw [hg] at egb
          obtain rfl := Option.some.inj egb
          exact absurd kb hfg
      · rcases marked_cases key f e.hash c with ⟨_, nc⟩ | ⟨ec, _⟩
        · exact absurd ⟨by rw [← h2, ← h1], k, hk, hfk⟩ nc
        · exact ec
  · rintro (hn | hst | hsp)
    · exact .inl (.inr ⟨by rw [hf]; rfl, hn⟩)
    · obtain ⟨a', c', hs, h1, h2, h3⟩ := hst
      obtain ⟨l, hl, el⟩ := List.sublist_map_iff.1 hs
      match l, el, hl with
      | [a, c], el, hl =>
        simp only [List.map_cons, List.map_nil, List.cons.injEq, and_true] at el
        obtain ⟨rfl, rfl⟩ := el
        rw [mh, mh] at h1
        have ea : marked key f e.hash a = a := by
          rcases marked_cases key f e.hash a with ⟨ea, _⟩ | ⟨ea, _⟩
          · exact ea
          · rw [ea] at h2; cases h2
        have na : ¬ (a.hash = e.hash ∧ ∃ g, a.file = some g ∧ key f = key g) := by
          rcases marked_cases key f e.hash a with ⟨_, na⟩ | ⟨ea, _⟩
          · exact na
          · rw [ea] at h2; cases h2
        rw [ea] at h2
        rcases marked_cases key f e.hash c with ⟨ec, _⟩ | ⟨_, hc, gc, egc, kc⟩
        · rw [ec] at h3
          exact .inl (.inl ⟨a, c, hl, h1, h2, h3⟩)
        · obtain ⟨ga, ega⟩ := Option.isSome_iff_exists.1 h2
          refine .inr (.inr ⟨a, c, hl, by rw [h1, hc], h1, f, ga, gc, hf, ega, egc, kc, fun hk => na ⟨by rw [h1, hc], ga, ega, hk⟩⟩)
    · obtain ⟨a', b', c', hs, h1, h2, f', g, k, hf', hg, hk, hfk, hfg⟩ := hsp
      obtain ⟨l, hl, el⟩ := List.sublist_map_iff.1 hs
      match l, el, hl with
      | [a, b, c], el, hl =>
        simp only [List.map_cons, List.map_nil, List.cons.injEq, and_true] at el
        obtain ⟨rfl, rfl, rfl⟩ := el
        have same : ∀ {x : Entry η} {y : FileEnt}, (marked key f e.hash x).file = some y → marked key f e.hash x = x := by
          intro x y hx
          rcases marked_cases key f e.hash x with ⟨ex, _⟩ | ⟨ex, _⟩
          · exact ex
          · rw [ex] at hx; cases hx
        have sa := same hf'
        have sb := same hg
        have sc := same hk
        rw [sa] at hf' h1
        rw [sb] at hg h1 h2
        rw [sc] at hk h2
        exact .inr (.inl ⟨a, b, c, hl, h1, h2, f', g, k, hf', hg, hk, hfk, hfg⟩)

/-- The loop over a class breaks off exactly in the two cases. -/
theorem outer_iff (w : World η) (json : Bool) (size : Nat) (key : FileEnt → κ) :
    ∀ (n : Nat) (es : List (Entry η)) (r : Int), es.length = n → Contig es →
      (∀ a ∈ es, ∀ b ∈ es, ∀ f g, a.file = some f → b.file = some g → Decides w key f g) →
      ((Stale es ∨ Split key es) → outer w json size n es r = .ub) ∧
      (¬ (Stale es ∨ Split key es) → ∃ x, outer w json size n es r = .ok x) := by
  intro n
  induction n with
  | zero =>
    intro es r hn _ _
    obtain rfl := List.length_eq_zero_iff.1 hn
    refine ⟨?_, fun _ => ⟨_, rfl⟩⟩
    rintro (⟨a, c, hs, _⟩ | ⟨a, b, c, hs, _⟩)
    · exact absurd hs.length_le (by simp)
    · exact absurd hs.length_le (by simp)
  | succ n ih =>
    intro es r hn hc hd
    match es, hn, hc, hd with
    | e :: es, hn, hc, hd =>
      have hn' : es.length = n := by simpa using hn
      cases hf : e.file with
      | none =>
        have hiff : (Stale (e :: es) ∨ Split key (e :: es)) ↔ (Stale es ∨ Split key es) := by
          rw [stale_cons, split_cons]
          simp [hf]
        obtain ⟨i1, i2⟩ := ih es r hn' hc.2 (fun a ha b hb => hd a (List.mem_cons_of_mem _ ha) b (List.mem_cons_of_mem _ hb))
        rw [hiff]
        simp only [outer, hf]
        exact ⟨i1, i2⟩
      | some f =>
        obtain ⟨run, tail, hrt, hrun, htail⟩ := hc.1
        have hin := inner_total w json key f e.hash tail htail run r hrun (fun e' he' g hg =>
          hd e List.mem_cons_self e' (List.mem_cons_of_mem _ (by rw [hrt]; exact List.mem_append_left _ he')) f g hf hg)
        rw [turn hf]
        simp only [outer, hf]
        rw [← hrt] at hin
        by_cases hnone : ∃ c ∈ es, e.hash = c.hash ∧ c.file = none
        · have hx : ∃ e' ∈ run, e'.file = none := by
            obtain ⟨c, hc1, hc2, hc3⟩ := hnone
            rw [hrt] at hc1
            rcases List.mem_append.1 hc1 with hc1 | hc1
            · exact ⟨c, hc1, hc3⟩
            · exact absurd hc2.symm (htail c hc1)
          rw [hin.1 hx]
          exact ⟨fun _ => rfl, fun hh => absurd (.inl hnone) hh⟩
        · have hx : ∀ e' ∈ run, e'.file.isSome := by
            intro e' he'
            cases hf' : e'.file with
            | some _ => rfl
            | none => exact absurd ⟨e', by rw [hrt]; exact List.mem_append_left _ he', (hrun e' he').symm, hf'⟩ hnone
          obtain ⟨x, x1, x2⟩ := hin.2 hx
          have hfile : ∀ {y : Entry η} {g : FileEnt}, (marked key f e.hash y).file = some g → y.file = some g := by
            intro y g hy
            rcases marked_cases key f e.hash y with ⟨ey, _⟩ | ⟨ey, _⟩
            · rw [← ey]; exact hy
            · rw [ey] at hy; cases hy
          obtain ⟨i1, i2⟩ := ih x.rest x.res (by rw [x2, List.length_map, hn'])
            (by
              refine contig_congr es _ ?_ hc.2
              rw [x2, List.map_map]
              exact List.map_congr_left (fun y _ => (marked_hash key f e.hash y).symm))
            (by
              intro a ha b hb f' g' hf' hg'
              rw [x2] at ha hb
              obtain ⟨a0, ha0, rfl⟩ := List.mem_map.1 ha
              obtain ⟨b0, hb0, rfl⟩ := List.mem_map.1 hb
              exact hd a0 (List.mem_cons_of_mem _ ha0) b0 (List.mem_cons_of_mem _ hb0) f' g' (hfile hf') (hfile hg'))
          rw [x1, Res.ok_bind]
          rw [x2] at i1 i2
          constructor
          · rintro (hh | hh)
            · exact absurd hh hnone
            · rw [x2, i1 hh]; rfl
          · intro hh
            obtain ⟨⟨gs, lg⟩, ex⟩ := i2 (fun h => hh (.inr h))
            rw [x2, ex]
            exact ⟨_, rfl⟩

theorem classes_ub (w : World η) (json : Bool) (ent : Nat → List (Entry η)) (k0 : Nat) :
    ∀ (ks : List Nat), k0 ∈ ks → outer w json k0 (ent k0).length (w.qs (ent k0)) 0 = .ub →
      (∀ k ∈ ks, outer w json k (ent k).length (w.qs (ent k)) 0 = .ub ∨ ∃ x, outer w json k (ent k).length (w.qs (ent k)) 0 = .ok x) →
      classes w json ent ks = .ub := by
  intro ks
  induction ks with
  | nil => intro h; exact (List.not_mem_nil h).elim
  | cons k ks ih =>
    intro hk hu hall
    unfold classes
    rcases hall k List.mem_cons_self with e | ⟨⟨g, l⟩, e⟩
    · rw [e]; rfl
    · rw [e, Res.ok_bind]
      rcases List.mem_cons.1 hk with rfl | hk
      · rw [hu] at e; cases e
      · show (classes w json ent ks).bind _ = _
        rw [ih hk hu (fun k' hk' => hall k' (List.mem_cons_of_mem _ hk'))]; rfl

/-- The place of an entry among those with one digest. -/
def place (e : Entry η) : Int := match e.file with | some f => prioVal f | none => 0

/-- What `ft_chksum_cmp` (ft_report.c L41-54) orders by, also where a file is NULL. -/
def before (hcmp : η → η → Int) (a b : Entry η) : Bool := hcmp a.hash b.hash ≤ 0 && (a.hash ≠ b.hash || place a ≤ place b)

theorem before_iff {hcmp : η → η → Int} {a b : Entry η} : before hcmp a b = true ↔ hcmp a.hash b.hash ≤ 0 ∧ (a.hash = b.hash → place a ≤ place b) := by
  unfold before
  simp only [Bool.and_eq_true, Bool.or_eq_true, decide_eq_true_eq]
  constructor
  · rintro ⟨h1, h2⟩; exact ⟨h1, fun h => h2.elim (absurd h) id⟩
  · rintro ⟨h1, h2⟩; refine ⟨h1, ?_⟩
    by_cases h : a.hash = b.hash
    · exact .inr (h2 h)
    · exact .inl h

theorem before_trans {hcmp : η → η → Int} (ho : HashOrder hcmp) (ht : ∀ a b c, hcmp a b ≤ 0 → hcmp b c ≤ 0 → hcmp a c ≤ 0) (a b c : Entry η) :
    before hcmp a b = true → before hcmp b c = true → before hcmp a c = true := by
  rw [before_iff, before_iff, before_iff]
  rintro ⟨h1, h2⟩ ⟨h3, h4⟩
  refine ⟨ht _ _ _ h1 h3, fun h => ?_⟩
  rw [← h] at h3
  have hab := ho.anti _ _ h1 h3
  exact Int.le_trans (h2 hab) (h4 (by rw [← hab, h]))

theorem before_total {hcmp : η → η → Int} (ho : HashOrder hcmp) (ht : ∀ a b, hcmp a b ≤ 0 ∨ hcmp b a ≤ 0) (a b : Entry η) : (before hcmp a b || before hcmp b a) = true := by
  rw [Bool.or_eq_true, before_iff, before_iff]
  by_cases h : a.hash = b.hash
  · have h0 := (ho.zero _ _).2 h
    have h1 := (ho.zero _ _).2 h.symm
    rcases Int.le_total (place a) (place b) with hp | hp
    · exact .inl ⟨by omega, fun _ => hp⟩
    · exact .inr ⟨by omega, fun _ => hp⟩
  · rcases ht a.hash b.hash with h1 | h1
    · exact .inl ⟨h1, fun hh => absurd hh h⟩
    · exact .inr ⟨h1, fun hh => absurd hh.symm h⟩

theorem chksumCmp_before {w : World η} (ho : HashOrder w.hcmp) {a b : Entry η} (ha : a.file.isSome) (hb : b.file.isSome) :
    chksumCmp w a b ≤ 0 ↔ before w.hcmp a b = true := by
  obtain ⟨f, hf⟩ := Option.isSome_iff_exists.1 ha
  obtain ⟨g, hg⟩ := Option.isSome_iff_exists.1 hb
  rw [before_iff]
  unfold chksumCmp place
  simp only [hf, hg]
  by_cases h : a.hash = b.hash
  · have h0 := (ho.zero _ _).2 h
    rw [if_pos h0, h0]
    constructor
    · intro hh; exact ⟨by omega, fun _ => by omega⟩
    · rintro ⟨_, hh⟩; have := hh h; omega
  · rw [if_neg (fun h0 => h ((ho.zero _ _).1 h0))]
    exact ⟨fun hh => ⟨hh, fun h' => absurd h' h⟩, fun hh => hh.1⟩

omit [DecidableEq η] in
theorem sub3 {α : Type} {P : α → α → Prop} {a b c : α} {l : List α} (h : [a, b, c].Sublist l) (hp : l.Pairwise P) : P a b ∧ P b c ∧ P a c := by
  have := hp.sublist h
  simp only [List.pairwise_cons, List.mem_cons, List.not_mem_nil, or_false, forall_eq_or_imp, forall_eq] at this
  exact ⟨this.1.1, this.2.1, this.1.2⟩

end Verif.Report
