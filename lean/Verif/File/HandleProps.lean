import Verif.File.Handles
import Verif.File.Props

/-!
# How many files are open (C127)

A digest holds one file open and a comparison two, and nothing afterwards, unless the comparison ends because a read failed or gave less than was asked for.  In that case two descriptors are lost.
-/

namespace Verif.File

variable {β : Type}

theorem Fds.drop_grab (d : Fds) : d.grab.drop = { d with peak := max d.peak (d.opened + 1) } := by
  simp [Fds.grab, Fds.drop]

/-- What a function has left: the limit is as before, `lost` more files are open, and it never had more than `k` files open. -/
structure Left (k lost : Nat) (d d' : Fds) : Prop where
  limit : d'.limit = d.limit
  opened : d'.opened = d.opened + lost
  peak : d'.peak ≤ max d.peak (d.opened + k)

theorem opens_of {d : Fds} {f : OnDisk} (h : d.opened < d.limit) : d.opens f = f.openOk := by
  simp [Fds.opens, h]

theorem bigSum_room (H : Bytes → β) (fuel : Nat) {d : Fds} (f : OnDisk) (h : d.opened < d.limit) :
    (do let r ← checksumBigIn H fuel d f; Res.ok r.1) = checksumBig H fuel f := by
  unfold checksumBigIn checksumBig
  rw [opens_of h]
  split
  · cases sumLoop fuel f.stream [] with
    | ok r => obtain ⟨eof, acc⟩ := r; cases eof <;> rfl
    | ub => rfl
    | div => rfl
  · rfl

theorem bigSum_left (H : Bytes → β) {fuel : Nat} {d d' : Fds} {f : OnDisk} {x : Option β} (e : checksumBigIn H fuel d f = .ok (x, d')) : Left 1 0 d d' ∧ d'.maps = d.maps := by
  have h0 : Left 1 0 d d.grab.drop ∧ d.grab.drop.maps = d.maps := by rw [Fds.drop_grab]; exact ⟨⟨rfl, rfl, Nat.le_refl _⟩, rfl⟩
  unfold checksumBigIn at e
  split at e
  · obtain ⟨⟨eof, acc⟩, -, e⟩ := Res.bind_eq_ok.1 e
    cases eof <;> (cases e; exact h0)
  · cases e; exact ⟨⟨rfl, rfl, Nat.le_max_left _ _⟩, rfl⟩

/-- **C127, digests.**  However the calls end, a digest leaves no file open and had at most one; when there is a free descriptor, its result is that without a limit. -/
theorem digest_closes (H : Bytes → β) (fuel : Nat) (d : Fds) (f : OnDisk) (size excess : Nat) :
    (d.opened < d.limit → (do let r ← checksumIn H fuel d f size excess; Res.ok r.1) = checksum H fuel f size excess) ∧
    ∀ x d', checksumIn H fuel d f size excess = .ok (x, d') → Left 1 0 d d' ∧ d'.maps = d.maps := by
  have hd : d.grab.drop = { d with peak := max d.peak (d.opened + 1) } := Fds.drop_grab d
  constructor
  · intro h
    unfold checksumIn checksum
    split
    · unfold checksumSmallIn checksumSmall
      rw [opens_of h]
      split
      · split
        · cases mapped f size <;> rfl
        · rw [hd]; exact bigSum_room H fuel f h
      · rfl
    · exact bigSum_room H fuel f h
  · intro x d' e
    unfold checksumIn at e
    split at e
    · unfold checksumSmallIn at e
      split at e
      · split at e
        · obtain ⟨b, -, e⟩ := Res.bind_eq_ok.1 e
          cases e
          exact ⟨⟨rfl, rfl, Nat.le_refl _⟩, rfl⟩
        · rw [hd] at e
          obtain ⟨⟨a, b, c⟩, m⟩ := bigSum_left H e
          exact ⟨⟨a, b, Nat.le_trans c (by simp only []; omega)⟩, m⟩
      · cases e; exact ⟨⟨rfl, rfl, Nat.le_max_left _ _⟩, rfl⟩
    · exact bigSum_left H e

theorem big_room (fuel : Nat) {d : Fds} (f1 f2 : OnDisk) (size : Nat) (r0 : Int) (h : d.opened + 2 ≤ d.limit) :
    (do let r ← bigFilecmpIn fuel d f1 f2 size r0; Res.ok r.1) = bigFilecmp fuel f1 f2 size r0 := by
  unfold bigFilecmpIn bigFilecmp
  rw [opens_of (by omega), opens_of (d := d.grab) (by show d.opened + 1 < d.limit; omega)]
  split
  · rfl
  · split
    · rfl
    · split
      · rfl
      · cases cmpLoop fuel f1.stream f2.stream r0 with
        | ok r =>
          obtain ⟨r, eof, ok1⟩ := r
          simp only [Res.ok_bind]
          split <;> rfl
        | ub => rfl
        | div => rfl

/-- A comparison, with room for two files, does what it does without a limit. -/
theorem compare_room (fuel : Nat) {d : Fds} (f1 f2 : OnDisk) (size excess : Nat) (r0 : Int) (h : d.opened + 2 ≤ d.limit) :
    (do let r ← filecmpIn fuel d f1 f2 size excess r0; Res.ok r.1) = filecmp fuel f1 f2 size excess r0 := by
  unfold filecmpIn filecmp
  split
  · unfold smallFilecmpIn smallFilecmp
    rw [opens_of (by omega), opens_of (d := d.grab.mapIn) (by show d.opened + 1 < d.limit; omega)]
    split
    · rfl
    · split
      · rfl
      · split
        · exact big_room fuel f1 f2 size r0 (d := d.grab.drop) (by rw [Fds.drop_grab]; exact h)
        · split
          · rfl
          · split
            · exact big_room fuel f1 f2 size r0 (d := d.grab.mapIn.grab.drop.drop) h
            · cases mapped f1 size with
              | ok b1 => cases mapped f2 size <;> rfl
              | ub => rfl
              | div => rfl
  · exact big_room fuel f1 f2 size r0 h

theorem big_left {fuel : Nat} {d d' : Fds} {f1 f2 : OnDisk} {size : Nat} {r0 : Int} {c : Cmp} (e : bigFilecmpIn fuel d f1 f2 size r0 = .ok (c, d')) :
    d'.maps = d.maps ∧ (Left 2 0 d d' ∨ Left 2 2 d d' ∧ ∃ ok1, cmpLoop fuel f1.stream f2.stream r0 = .ok (0, false, ok1)) := by
  unfold bigFilecmpIn at e
  split at e
  · cases e; exact ⟨rfl, .inl ⟨rfl, rfl, Nat.le_max_left _ _⟩⟩
  · split at e
    · cases e; exact ⟨rfl, .inl ⟨rfl, rfl, Nat.le_max_left _ _⟩⟩
    · split at e
      · cases e; exact ⟨rfl, .inl ⟨rfl, rfl, by show max d.peak (d.opened + 1) ≤ _; omega⟩⟩
      · obtain ⟨⟨r, eof, ok1⟩, hl, e⟩ := Res.bind_eq_ok.1 e
        simp only [] at e
        have hp : d.grab.grab.peak ≤ max d.peak (d.opened + 2) := by
          show max (max d.peak (d.opened + 1)) (d.opened + 1 + 1) ≤ _; omega
        split at e
        · rename_i hc
          simp only [Bool.and_eq_true, Bool.not_eq_true', beq_iff_eq] at hc
          cases e
          exact ⟨rfl, .inr ⟨⟨rfl, rfl, hp⟩, ok1, by rw [hl, hc.1, hc.2]⟩⟩
        · cases e
          exact ⟨rfl, .inl ⟨rfl, rfl, hp⟩⟩

/-- **C127, comparisons, what they leave.**  A comparison never has more than two files open; afterwards both are closed, or both are open and the reading has stopped without a difference and without an end of file.
One mapping can be left, when the second file could not be mapped. -/
theorem compare_left {fuel : Nat} {d d' : Fds} {f1 f2 : OnDisk} {size excess : Nat} {r0 : Int} {c : Cmp} (e : filecmpIn fuel d f1 f2 size excess r0 = .ok (c, d')) :
    (d'.maps = d.maps ∨ f2.mapOk = false ∧ d'.maps = d.maps + 1) ∧
    (Left 2 0 d d' ∨ Left 2 2 d d' ∧ ∃ ok1, cmpLoop fuel f1.stream f2.stream r0 = .ok (0, false, ok1)) := by
  unfold filecmpIn at e
  split at e
  · unfold smallFilecmpIn at e
    split at e
    · cases e; exact ⟨.inl rfl, .inl ⟨rfl, rfl, Nat.le_max_left _ _⟩⟩
    · split at e
      · cases e; exact ⟨.inl rfl, .inl ⟨rfl, rfl, Nat.le_max_left _ _⟩⟩
      · split at e
        · rw [Fds.drop_grab] at e
          obtain ⟨m, h⟩ := big_left e
          refine ⟨.inl m, ?_⟩
          rcases h with ⟨a, b, p⟩ | ⟨⟨a, b, p⟩, h⟩
          · exact .inl ⟨a, b, Nat.le_trans p (by simp only []; omega)⟩
          · exact .inr ⟨⟨a, b, Nat.le_trans p (by simp only []; omega)⟩, h⟩
        · split at e
          · cases e; exact ⟨.inl rfl, .inl ⟨rfl, rfl, by show max d.peak (d.opened + 1) ≤ _; omega⟩⟩
          · have hp : d.grab.mapIn.grab.drop.drop.peak ≤ max d.peak (d.opened + 2) := by
              show max (max d.peak (d.opened + 1)) (d.opened + 1 + 1) ≤ _; omega
            split at e
            · rename_i hm
              obtain ⟨m, h⟩ := big_left e
              refine ⟨.inr ⟨by simpa using hm, m⟩, ?_⟩
              have hq : ∀ {p : Nat}, p ≤ max d.grab.mapIn.grab.drop.drop.peak (d.opened + 2) → p ≤ max d.peak (d.opened + 2) := fun h => by omega
              rcases h with ⟨a, b, p⟩ | ⟨⟨a, b, p⟩, h⟩
              · exact .inl ⟨a, b, hq p⟩
              · exact .inr ⟨⟨a, b, hq p⟩, h⟩
            · obtain ⟨b1, -, e⟩ := Res.bind_eq_ok.1 e
              obtain ⟨b2, -, e⟩ := Res.bind_eq_ok.1 e
              cases e
              exact ⟨.inl rfl, .inl ⟨rfl, rfl, hp⟩⟩
  · obtain ⟨m, h⟩ := big_left e
    exact ⟨.inl m, h⟩

/-- Two files that have the stated length and whose reads do not fail; those of the second give what is asked for. -/
structure Steady (f1 f2 : OnDisk) (size : Nat) : Prop where
  len1 : f1.bytes.length = size
  len2 : f2.bytes.length = size
  reads1 : none ∉ f1.sched
  reads2 : f2.sched = []

/-- **C127, comparisons.**  Comparing files that do not change and can be read leaves none of them open, whether or not they can be opened, mapped and closed. -/
theorem compare_closes {fuel : Nat} {d d' : Fds} {f1 f2 : OnDisk} {size excess : Nat} {c : Cmp} (h : Steady f1 f2 size) (hf : size < fuel)
    (e : filecmpIn fuel d f1 f2 size excess 0 = .ok (c, d')) : Left 2 0 d d' := by
  rcases (compare_left e).2 with h' | ⟨-, ok1, hl⟩
  · exact h'
  · obtain ⟨r, eof, h1, -, h2⟩ := cmpLoop_equal_len fuel f1.stream f2.bytes 0 (by show f1.bytes.length < _; rw [h.len1]; exact hf)
      (by show f1.bytes.length = _; rw [h.len1, h.len2]) h.reads1 fun _ => rfl
    have : f2.stream = ⟨f2.bytes, []⟩ := by unfold OnDisk.stream; rw [h.reads2]
    rw [this, h1] at hl
    have hl := Res.ok.inj hl
    simp only [Prod.mk.injEq] at hl
    rw [h2 hl.1] at hl
    cases hl.2.1

/-- **C127, reports.**  However many comparisons a report makes of files that do not change and can be read: with two descriptors left when it begins, each gives what it gives without a limit, and at the end
no file is open that was not at the beginning. -/
theorem comparisons_closed_partial (fuel excess : Nat) : ∀ (l : List (OnDisk × OnDisk × Nat)) (d : Fds), d.opened + 2 ≤ d.limit →
    (∀ x ∈ l, Steady x.1 x.2.1 x.2.2 ∧ x.2.2 < fuel) → ∀ cs d', comparisons fuel excess d l = .ok (cs, d') →
    (∀ i (hi : i < l.length), ∃ c, cs[i]? = some c ∧ filecmp fuel l[i].1 l[i].2.1 l[i].2.2 excess 0 = .ok c) ∧ cs.length = l.length ∧ Left 2 0 d d' := by
  intro l
  induction l with
  | nil => intro d _ _ cs d' e; cases e; exact ⟨fun i hi => absurd hi (Nat.not_lt_zero _), rfl, rfl, rfl, Nat.le_max_left _ _⟩
  | cons x l ih =>
    intro d h hs cs d' e
    obtain ⟨f1, f2, size⟩ := x
    rw [comparisons] at e
    obtain ⟨⟨c, d1⟩, e1, e⟩ := Res.bind_eq_ok.1 e
    obtain ⟨⟨cs1, d2⟩, e2, e⟩ := Res.bind_eq_ok.1 e
    cases e
    obtain ⟨hst, hf⟩ := hs _ List.mem_cons_self
    have L := compare_closes hst hf e1
    have hr := compare_room fuel f1 f2 size excess 0 h
    rw [e1] at hr
    obtain ⟨h1, h2, L2⟩ := ih d1 (by rw [L.opened, L.limit]; exact h) (fun y hy => hs y (List.mem_cons_of_mem _ hy)) _ _ e2
    refine ⟨fun i hi => ?_, by simp [h2], L2.limit.trans L.limit, L2.opened.trans L.opened, ?_⟩
    · cases i with
      | zero => exact ⟨c, rfl, hr.symm⟩
      | succ i => exact h1 i (by simpa using hi)
    · have := L2.peak
      have := L.peak
      have : d1.opened = d.opened := L.opened
      omega

/-- A file of `n + 1` bytes, the first read of which fails. -/
def unreadable (n : Nat) : OnDisk := { bytes := List.replicate (n + 1) 0, sched := [none] }

theorem unreadable_leaks (fuel n : Nat) {d : Fds} (g : OnDisk) (hg : g.openOk = true) (hs : g.sched = []) (h : d.opened + 2 ≤ d.limit) :
    filecmpIn (fuel + 1) d (unreadable n) g (n + 1) (n + 1) 0 = .ok ((false, 0), d.grab.grab) := by
  unfold filecmpIn
  rw [if_neg (Nat.lt_irrefl _)]
  unfold bigFilecmpIn
  rw [if_neg (by omega), opens_of (by omega), opens_of (d := d.grab) (by show d.opened + 1 < d.limit; omega), hg]
  have hl : cmpLoop (fuel + 1) (unreadable n).stream g.stream 0 = .ok (0, false, false) := by
    unfold cmpLoop
    simp [unreadable, OnDisk.stream, Stream.read, hugeLen, hs]
  rw [hl]
  rfl

/-- **C127 is false when reads fail.**  Whatever the limit is: so many comparisons in which a read failed that two descriptors are not left any more, and then two files that are the same file, readable and not
empty.  Without a limit they are found equal; with it, the comparison fails, and the report leaves the pair out. -/
theorem failed_reads_hide_duplicates (fuel n : Nat) (g : OnDisk) (hg : g.openOk = true) (hc : g.closeOk = true) (hs : g.sched = []) (hn : g.bytes.length = n + 1) (hf : n + 1 < fuel) (d : Fds)
    (h : d.opened ≤ d.limit) :
    filecmp fuel g g (n + 1) (n + 1) 0 = .ok (true, 0) ∧
    ∃ cs d', comparisons fuel (n + 1) d (List.replicate ((d.limit - d.opened) / 2) (unreadable n, g, n + 1) ++ [(g, g, n + 1)]) = .ok (cs, d') ∧ cs.getLast? = some (false, 0) := by
  constructor
  · obtain ⟨r, h1, h2⟩ := filecmp_status_and_result g g (n + 1) (n + 1) fuel 0 hn hn ⟨hg, hg⟩ (by rw [hs]; simp) hs hf
    rw [h1, h2.2 rfl, hc]; rfl
  · obtain ⟨fuel, rfl⟩ : ∃ k, fuel = k + 1 := ⟨fuel - 1, by omega⟩
    have key : ∀ k (d : Fds), d.opened ≤ d.limit → (d.limit - d.opened) / 2 = k →
        ∃ cs d', comparisons (fuel + 1) (n + 1) d (List.replicate k (unreadable n, g, n + 1) ++ [(g, g, n + 1)]) = .ok (cs, d') ∧ cs.getLast? = some (false, 0) := by
      intro k
      induction k with
      | zero =>
        intro d h hk
        have hlast : ∃ d', filecmpIn (fuel + 1) d g g (n + 1) (n + 1) 0 = .ok ((false, 0), d') := by
          unfold filecmpIn
          rw [if_neg (Nat.lt_irrefl _)]
          unfold bigFilecmpIn
          rw [if_neg (by omega)]
          split
          · exact ⟨_, rfl⟩
          · have hno : ¬ d.opened + 1 < d.limit := by omega
            rw [if_pos (by simp [Fds.opens, Fds.grab, hno])]
            exact ⟨_, rfl⟩
        obtain ⟨d', hd⟩ := hlast
        refine ⟨[(false, 0)], d', ?_, rfl⟩
        simp only [List.replicate_zero, List.nil_append, comparisons, hd, Res.ok_bind]
      | succ k ih =>
        intro d h hk
        obtain ⟨cs, d', e, hl⟩ := ih d.grab.grab (by show d.opened + 1 + 1 ≤ d.limit; omega) (by show (d.limit - (d.opened + 1 + 1)) / 2 = k; omega)
        refine ⟨(false, 0) :: cs, d', ?_, ?_⟩
        · rw [List.replicate_succ, List.cons_append, comparisons, unreadable_leaks fuel n g hg hs (by omega), Res.ok_bind]
          simp only []
          rw [e, Res.ok_bind]
        · cases cs with
          | nil => cases hl
          | cons c cs => rw [List.getLast?_cons_cons]; exact hl
    exact key _ d h rfl

/-- Comparisons that meet the hypotheses of `comparisons_closed_partial`: two equal files, the first read in pieces, and two that differ and cannot be mapped. -/
example : ∃ cs d', comparisons 10 5 ⟨2, 0, 0, 0⟩ [({ bytes := [1, 2, 3], sched := [some 0, some 0] }, { bytes := [1, 2, 3] }, 3), ({ bytes := [1, 2], mapOk := false }, { bytes := [1, 3] }, 2)] = .ok (cs, d') ∧
    cs.map Prod.fst = [true, true] ∧ cs.map (fun c => decide (c.2 = 0)) = [true, false] ∧ d'.opened = 0 ∧ d'.peak = 2 := ⟨_, _, rfl, by decide, by decide, rfl, by decide⟩

example : Steady { bytes := [1, 2, 3], sched := [some 0, some 0] } { bytes := [1, 2, 3] } 3 := ⟨rfl, rfl, by decide, rfl⟩

end Verif.File
