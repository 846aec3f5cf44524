import Verif.Main.Example
import Verif.Xxh.Props128

/-!
# Runs with the digest and the comparison that the program has (C112, C128)

In `Machine` the digest and the comparison of digests are parameters.  Here they are XXH128 and `memcmp` over the sixteen bytes of an `XXH128_hash_t`, so that nothing is assumed of them.
-/

namespace Verif.Main

open Verif.Config (Tok chars)
open Verif.Traverse (Path scanArgs)
open Verif.Report (FileEnt World Entry Exact chksumCmp prioVal)
open Verif.Ignore (Ctx)
open Verif.Output (Digest)

/-- ft_file.c L65, L125: the digest of the bytes, as `XXH3_128bits` and `XXH3_128bits_digest` return it. -/
def realDigest (b : File.Bytes) : Digest := ⟨.ofBitVec (Xxh3.hash b).hi, .ofBitVec (Xxh3.hash b).lo⟩

theorem realDigest_inj {a b : File.Bytes} (h : realDigest a = realDigest b) : Xxh3.hash a = Xxh3.hash b := by
  unfold realDigest at h
  simp only [Digest.mk.injEq, UInt64.ofBitVec.injEq] at h
  cases ha : Xxh3.hash a; cases hb : Xxh3.hash b
  rw [ha, hb] at h
  simp only at h
  rw [h.1, h.2]

/-- An `XXH128_hash_t` in memory: `low64`, then `high64`, each with its lowest byte first (xxhash.h, `XXH128_hash_t`). -/
def inMemory (d : Digest) : File.Bytes := Xxh3.leBytes 8 d.low.toNat ++ Xxh3.leBytes 8 d.high.toNat

theorem inMemory_length (d : Digest) : (inMemory d).length = 16 := by
  simp [inMemory, Xxh3.leBytes_length]

theorem inMemory_inj {a b : Digest} (h : inMemory a = inMemory b) : a = b := by
  obtain ⟨h1, h2⟩ := List.append_inj h (by rw [Xxh3.leBytes_length, Xxh3.leBytes_length])
  have e1 := Xxh3.leBytes_inj a.low.toNat_lt b.low.toNat_lt h1
  have e2 := Xxh3.leBytes_inj a.high.toNat_lt b.high.toNat_lt h2
  have e1 := UInt64.toNat_inj.mp e1
  have e2 := UInt64.toNat_inj.mp e2
  cases a; cases b
  rw [Digest.mk.injEq]
  exact ⟨e2, e1⟩

/-- ft_report.c L47: `memcmp` of two digests. -/
def digestCmp (a b : Digest) : Int := File.memcmp (inMemory a) (inMemory b)

theorem memcmp_swap : ∀ a b : File.Bytes, File.memcmp b a = - File.memcmp a b := by
  intro a
  induction a with
  | nil => intro b; cases b <;> rfl
  | cons x xs ih =>
    intro b
    cases b with
    | nil => rfl
    | cons y ys =>
      unfold File.memcmp
      by_cases h : x = y
      · rw [if_pos h, if_pos h.symm]; exact ih ys
      · rw [if_neg h, if_neg fun e => h e.symm]; omega

theorem memcmp_trans : ∀ a b c : File.Bytes, a.length = b.length → b.length = c.length → File.memcmp a b ≤ 0 → File.memcmp b c ≤ 0 → File.memcmp a c ≤ 0 := by
  intro a
  induction a with
  | nil => intro b c h1 h2 _ _; cases c <;> exact Int.le_refl _
  | cons x xs ih =>
    intro b c h1 h2
    cases b with
    | nil => cases h1
    | cons y ys =>
      cases c with
      | nil => cases h2
      | cons z zs =>
        unfold File.memcmp
        have hn : ∀ u v : UInt8, u ≠ v → u.toNat ≠ v.toNat := fun u v h e => h (UInt8.toNat_inj.mp e)
        by_cases h : x = y
        · subst h
          rw [if_pos rfl]
          by_cases h' : x = z
          · subst h'
            rw [if_pos rfl, if_pos rfl]
            exact ih ys zs (by simpa using h1) (by simpa using h2)
          · rw [if_neg h', if_neg h']
            intro _ h; exact h
        · rw [if_neg h]
          by_cases h' : y = z
          · subst h'
            rw [if_pos rfl, if_neg h]
            intro h _; exact h
          · rw [if_neg h']
            have := hn x y h
            have := hn y z h'
            intro h3 h4
            rw [if_neg (by intro e; subst e; omega)]
            omega

theorem digestCmp_order : Report.HashOrder digestCmp where
  zero := fun a b => ⟨fun h => inMemory_inj ((File.memcmp_eq_zero _ _ (by rw [inMemory_length, inMemory_length])).1 h), fun h => by rw [h]; exact File.memcmp_self _⟩
  anti := by
    intro a b h1 h2
    unfold digestCmp at h1 h2
    rw [memcmp_swap] at h2
    exact inMemory_inj ((File.memcmp_eq_zero _ _ (by rw [inMemory_length, inMemory_length])).1 (by omega))

/-! ## The comparison handed to `qsort` (C128) -/

/-- **C128.**  What the C standard asks of the comparison that `qsort` is given (7.22.5): on entries with files it is the comparison of a total order, so that the answers for any entries agree with each
other, whatever their digests and priorities; and it is 0 exactly for entries with the same digest and the same priority. -/
theorem sort_order_consistent (w : World Digest) (h : w.hcmp = digestCmp) :
    (∀ a b : Entry Digest, (chksumCmp w a b < 0 ↔ 0 < chksumCmp w b a) ∧ (chksumCmp w a b = 0 ↔ chksumCmp w b a = 0)) ∧
    (∀ a b c : Entry Digest, a.file.isSome → b.file.isSome → c.file.isSome → chksumCmp w a b ≤ 0 → chksumCmp w b c ≤ 0 → chksumCmp w a c ≤ 0) ∧
    ∀ (a b : Entry Digest) (f g : FileEnt), a.file = some f → b.file = some g → (chksumCmp w a b = 0 ↔ a.hash = b.hash ∧ f.prio = g.prio) := by
  have hz := digestCmp_order.zero
  have hsw : ∀ a b : Digest, digestCmp b a = - digestCmp a b := fun a b => memcmp_swap _ _
  have sw : ∀ a b : Entry Digest, chksumCmp w b a = - chksumCmp w a b := by
    intro a b
    unfold chksumCmp
    rw [h]
    simp only [hsw a.hash b.hash]
    by_cases h0 : digestCmp a.hash b.hash = 0
    · rw [if_pos h0, if_pos (by omega)]
      cases a.file <;> cases b.file <;> simp <;> omega
    · rw [if_neg h0, if_neg (by omega)]
  have zero : ∀ (a b : Entry Digest) (f g : FileEnt), a.file = some f → b.file = some g → (chksumCmp w a b = 0 ↔ a.hash = b.hash ∧ f.prio = g.prio) := by
    intro a b f g ha hb
    unfold chksumCmp
    rw [h, ha, hb]
    by_cases h0 : digestCmp a.hash b.hash = 0
    · have := (hz _ _).1 h0
      simp only [if_pos h0]
      rw [this]
      unfold prioVal
      cases f.prio <;> cases g.prio <;> simp
    · have : a.hash ≠ b.hash := fun e => h0 ((hz _ _).2 e)
      simp only [if_neg h0, this, false_and, iff_false]
      exact h0
  refine ⟨fun a b => ?_, ?_, zero⟩
  · rw [sw a b]
    constructor <;> constructor <;> intro _ <;> omega
  · intro a b c ha hb hc h1 h2
    obtain ⟨f, hf⟩ := Option.isSome_iff_exists.1 ha
    obtain ⟨g, hg⟩ := Option.isSome_iff_exists.1 hb
    obtain ⟨k, hk⟩ := Option.isSome_iff_exists.1 hc
    unfold chksumCmp at h1 h2 ⊢
    rw [h, hf, hg] at h1
    rw [h, hg, hk] at h2
    rw [h, hf, hk]
    dsimp only at h1 h2 ⊢
    have ht : digestCmp a.hash b.hash ≤ 0 → digestCmp b.hash c.hash ≤ 0 → digestCmp a.hash c.hash ≤ 0 :=
      memcmp_trans _ _ _ (by rw [inMemory_length, inMemory_length]) (by rw [inMemory_length, inMemory_length])
    by_cases hab : digestCmp a.hash b.hash = 0
    · rw [if_pos hab] at h1
      rw [(hz _ _).1 hab]
      by_cases hbc : digestCmp b.hash c.hash = 0
      · rw [if_pos hbc] at h2 ⊢; omega
      · rw [if_neg hbc] at h2 ⊢; exact h2
    · rw [if_neg hab] at h1
      by_cases hbc : digestCmp b.hash c.hash = 0
      · rw [← (hz _ _).1 hbc, if_neg hab]; exact h1
      · rw [if_neg hbc] at h2
        have hac : digestCmp a.hash c.hash ≠ 0 := by
          intro e
          have e' := (hz _ _).1 e
          rw [← e', hsw a.hash b.hash] at h2
          omega
        rw [if_neg hac]
        exact ht h1 h2

/-- **C128.**  What any sorting with this comparison leaves: entries with one digest stand side by side, and among them the prioritised files come first. -/
theorem sorted_side_by_side (w : World Digest) (h : w.hcmp = digestCmp) {l : List (Entry Digest)} (hs : l.Pairwise fun a b => chksumCmp w a b ≤ 0) :
    (∀ i j k, i < j → j < k → ∀ (hk : k < l.length) (_ : j < l.length) (_ : i < l.length), l[i].hash = l[k].hash → l[j].hash = l[i].hash) ∧
    ∀ i j, i < j → ∀ (_ : j < l.length) (_ : i < l.length), l[i].hash = l[j].hash → ∀ f g, l[i].file = some f → l[j].file = some g → g.prio = true → f.prio = true := by
  have hs := List.pairwise_iff_getElem.1 hs
  constructor
  · intro i j k hij hjk hk hj hi e
    have h1 := Report.hcmp_of_sorted (hs i j hi hj hij)
    have h2 := Report.hcmp_of_sorted (hs j k hj hk hjk)
    rw [h] at h1 h2
    rw [← e] at h2
    exact digestCmp_order.anti _ _ h2 h1
  · intro i j hij hj hi e f g hf hg hp
    have h1 := hs i j hi hj hij
    unfold chksumCmp at h1
    rw [h, hf, hg] at h1
    dsimp only at h1
    rw [if_pos ((digestCmp_order.zero _ _).2 e)] at h1
    unfold prioVal at h1
    rw [hp] at h1
    cases hfp : f.prio with
    | true => rfl
    | false => rw [hfp] at h1; simp at h1

/-! ## Short files -/

/-- A machine whose digest, comparison of digests and table of sizes are those of the program, and whose `qsort` sorts. -/
structure Genuine (m : Machine) : Prop where
  xxh128 : m.xxh128 = realDigest
  cmp : m.files.hcmp = digestCmp
  sizes : m.files.sizeHash = Xxh.sizeHash
  sorts : Report.Sorts m.files

/-- The files found can be read, do not change, and there is memory and time for them. -/
structure Legal (m : Machine) (cands : List FileEnt) : Prop where
  len : cands.length ≤ 2 ^ 31
  fuel : cands.length + 33 ≤ m.files.fuel
  size : ∀ f ∈ cands, f.size = (m.disk f.path).bytes.length
  io : ∀ f ∈ cands, f.size < m.fuel
  read : ∀ f ∈ cands, (m.disk f.path).openOk = true ∧ (m.disk f.path).closeOk = true ∧ (m.disk f.path).sched = []

theorem short_quiet {m : Machine} {cands : List FileEnt} (hm : Genuine m) (h : Legal m cands) (hs : ∀ f ∈ cands, f.size ≤ 16) : Quiet m cands where
  order := by rw [hm.cmp]; exact digestCmp_order
  sorts := hm.sorts
  hash := hm.sizes
  len := h.len
  fuel := h.fuel
  small := fun f hf => by have := hs f hf; omega
  size := h.size
  io := h.io
  read := h.read
  digests := by
    intro f hf g hg e he
    rw [hm.xxh128] at he
    have h1 := h.size f hf
    have h2 := h.size g hg
    have h3 := hs f hf
    exact Xxh3.short_digest_exact (by omega) (by omega) (by rw [Xxh3.xxh128_hash, Xxh3.xxh128_hash, realDigest_inj he])

/-- **C112, whole runs.**  With the digest of the program and `-M` with at most 16 bytes, the run ends with status 0 and its report, in text or in JSON, tells exactly the sets of identical files among those the
command line asks for.  Nothing is assumed of the digest or of the comparison. -/
theorem short_run (m : Machine) (pz : Image.Puzzle ν δ) (level : Nat → δ) (evs : List (Pool.Ev Nat)) (ts : List Tok) (args : List Path) (hm : Genuine m)
    (hu : Usable m ts) (ha : Accepted m ts args) (hI : 'I' ∉ chars ts) (ht : 't' ∉ chars ts) (hM : 0 < sizeOpt 'M' 0 ts ∧ sizeOpt 'M' 0 ts ≤ 16)
    {globals : List Ctx} (hgl : Traverse.globalChain m.engine = .ok globals) {cands : List FileEnt}
    (hscan : scanArgs (asked m globals ts) m.fs m.depth (place m ts) args = .ok (true, cands)) (hne : cands ≠ []) (hq : Legal m cands) (hl : Legible m ts cands) :
    ∃ (out : Image.Out) (gs : List (List FileEnt)), ftwinMain m pz level evs ts args = .ok (0, out) ∧ Tells m ts out (gs.map (·.map (·.path.toList))) ∧
      Exact (fun f => (m.disk f.path).bytes) cands gs ∧
      ∀ f, f ∈ cands ↔ ∃ a ∈ args, ∃ p, place m ts a = some p ∧ Traverse.Selected (asked m globals ts) m.fs p globals f := by
  have hs : ∀ f ∈ cands, f.size ≤ 16 := by
    intro f hf
    obtain ⟨a, -, p, -, q, rules', i, -, -, -, hso, -, hsz, -⟩ := (found_iff hscan f).1 hf
    have h2 := hso.2
    change sizeOpt 'M' 0 ts = 0 ∨ (i.size : Int) ≤ sizeOpt 'M' 0 ts at h2
    rw [hsz]
    omega
  obtain ⟨out, gs, e, h1, h2⟩ := any_run m pz level evs ts args hu ha hI ht hgl hscan hne (short_quiet hm hq hs).calm hl
  refine ⟨out, gs, e, h1, exact_congr h2 fun f hf g hg => ?_, found_iff hscan⟩
  unfold identity
  rw [if_pos (hq.read f hf).1, if_pos (hq.read g hg).1]
  exact ⟨Sum.inl.inj, fun h => by rw [h]⟩

/-! ## An example -/

/-- A file in every entry. -/
def filled (a : Entry Digest) : Entry Digest := { a with file := some (a.file.getD ⟨"", 0, 0, false⟩) }

/-- The comparison of the program in the world of the example. -/
def genuineOrder : World Digest := { mainFiles with hcmp := digestCmp }

/-- A `qsort`. -/
def sortEntries (l : List (Entry Digest)) : List (Entry Digest) := l.mergeSort fun a b => decide (chksumCmp genuineOrder (filled a) (filled b) ≤ 0)

def genuineFiles : World Digest := { genuineOrder with qs := sortEntries }

theorem genuineFiles_sorts : Report.Sorts genuineFiles where
  perm := fun l => List.mergeSort_perm l _
  sorted := by
    intro l hl
    have hc := sort_order_consistent genuineOrder rfl
    have := List.pairwise_mergeSort (le := fun a b => decide (chksumCmp genuineOrder (filled a) (filled b) ≤ 0))
      (by intro a b c h1 h2; exact decide_eq_true (hc.2.1 _ _ _ rfl rfl rfl (of_decide_eq_true h1) (of_decide_eq_true h2)))
      (by
        intro a b
        have := (hc.1 (filled b) (filled a)).1
        rw [Bool.or_eq_true, decide_eq_true_eq, decide_eq_true_eq]
        omega) l
    refine this.imp_of_mem ?_
    intro a b ha hb h
    have h := of_decide_eq_true h
    obtain ⟨f, hf⟩ := Option.isSome_iff_exists.1 (hl a ((List.mergeSort_perm l _).subset ha))
    obtain ⟨g, hg⟩ := Option.isSome_iff_exists.1 (hl b ((List.mergeSort_perm l _).subset hb))
    unfold chksumCmp filled at h
    unfold chksumCmp
    rw [hf, hg] at h
    rw [hf, hg]
    exact h

/-- The machine of `Main/Example.lean` with the digest and the comparison of the program. -/
def genuineMachine : Machine := { exMachine with xxh128 := realDigest, files := genuineFiles }

theorem genuineMachine_ok : Genuine genuineMachine := ⟨rfl, rfl, rfl, genuineFiles_sorts⟩

/-- `-M 16`. -/
def shortLine : List Tok := [.opt 'M' "16".toList]

/-- `short_run` applies. -/
example (pz : Image.Puzzle ν δ) (level : Nat → δ) (evs : List (Pool.Ev Nat)) :
    ∃ (out : Image.Out) (gs : List (List FileEnt)), ftwinMain genuineMachine pz level evs shortLine [['d']] = .ok (0, out) ∧
      Tells genuineMachine shortLine out (gs.map (·.map (·.path.toList))) ∧ Exact (fun f => (genuineMachine.disk f.path).bytes) exFound gs := by
  obtain ⟨out, gs, h1, h2, h3, -⟩ := short_run genuineMachine pz level evs shortLine [['d']] genuineMachine_ok ⟨by decide, Config.fit_of_few _ _ (by decide), by decide, by decide, by decide⟩
    ⟨by
      intro oa h
      simp only [shortLine, Config.given, List.mem_cons, List.not_mem_nil, or_false] at h
      subst h
      exact ⟨by decide, by decide, by simp, fun _ => ⟨16, by decide +kernel, by decide⟩, by simp⟩,
     by simp, rfl, by unfold Expressions; decide⟩ (by decide) (by decide) (by decide +kernel) exGlobals_ok (cands := exFound) (by decide +kernel) (by decide)
    ⟨by decide, by decide, by decide, by decide, by simp [genuineMachine, exMachine]⟩
    ⟨fun _ => ⟨by
      intro f hf
      simp only [exFound, List.mem_cons, List.not_mem_nil, or_false] at hf
      rcases hf with rfl | rfl <;> exact ⟨by decide, by decide, by decide⟩, fun h => by cases h⟩, fun h => absurd h (by decide)⟩
  exact ⟨out, gs, h1, h2, h3⟩

end Verif.Main
