import Verif.Db.Asc
import Verif.Db.Props

/-!
# Loading in ascending order (C44)
-/

namespace Verif.Db

open Verif.Page

/-- One size for all entries, at least two to a page. -/
def uniform (ks vs : Nat) : Limits := ⟨ks + vs + 6, ks + vs + 6, ks, ks⟩

theorem half_uniform {m : Nat} (h0 : 0 < m) (h : 2 * m ≤ 4078) : ((4078 / m + 1) / 2 + 1) * m ≤ 4078 := by
  have h1 : 2 ≤ 4078 / m := (Nat.le_div_iff_mul_le h0).2 h
  have h2 : (4078 / m + 1) / 2 + 1 ≤ 4078 / m := by omega
  exact Nat.le_trans (Nat.mul_le_mul_right m h2) (Nat.div_mul_le_self 4078 m)

theorem uniform_good {ks vs : Nat} (h1 : 2 * (ks + vs + 6) ≤ 4078) (h2 : 2 * (ks + 12) ≤ 4078) : (uniform ks vs).Good :=
  ⟨by show 0 < ks + vs + 6; omega, h1, half_uniform (by show 0 < ks + vs + 6; omega) h1, h2, half_uniform (by show 0 < ks + 12; omega) h2⟩

/-- One more key. -/
theorem bulk_step {L : Limits} (hL : L.Good) {env : Env} {t : Txn} {h fuel : Nat} {l0 : List (Bytes × Bytes)} {key val : Bytes}
    (hfit : L.Fits (.leaf key val)) (hr : t.rdonly = false) (hfree : t.freeRoot = 0) (hh : Holds env t h l0)
    (hgt : ∀ x ∈ l0.map Prod.fst, x < key) (hd : h < maxDepth) (hsp : t.root ≠ 0 → Spine L (getPage env t) h t.root)
    (hfull : t.root ≠ 0 → Full (getPage env t) h t.root) (hn : t.newLast + 34 < 2 ^ 64) :
    ∃ t' h', put env (fuel + 1) t key val = .ok (.success, t') ∧ t'.rdonly = false ∧ t'.freeRoot = 0 ∧ t'.root ≠ 0 ∧
      Holds env t' h' (l0 ++ [(key, val)]) ∧ Spine L (getPage env t') h' t'.root ∧
      Full (getPage env t') h' t'.root ∧ t'.newLast ≤ t.newLast + 33 := by
  have hd' : h < 32 := hd
  obtain ⟨t', h', a1, a2, a3⟩ := put_asc (ext_noFree env fuel) hL hfit hr hfree hh hgt (by simp) hd hsp (by omega)
  refine ⟨t', h', a1, a2.rdonly, a2.freeRoot.trans hfree, a2.root, .inr ⟨a2.root, a2.tree, ?_⟩, a3, a2.full hfull, by have := a2.last'; omega⟩
  obtain ⟨X, Y, e1, e2⟩ := a2.ins
  rw [e2, e1]
  cases Y with
  | nil => simp
  | cons y Y =>
    exfalso
    have hs := (wft_range h' a2.tree.wft).1
    rw [e2, List.map_append, List.map_cons, List.map_cons, sorted_append, sorted_cons] at hs
    have := hs.2.1.1 y.1 List.mem_cons_self
    exact blt_irrefl _ (blt_trans this (hgt y.1 (by rw [e1]; simp)))

theorem height_small {L : Limits} {env : Env} {t : Txn} {h : Nat} {l : List (Bytes × Bytes)} (hh : Holds env t h l)
    (hsp : t.root ≠ 0 → Spine L (getPage env t) h t.root) (h0 : t.root ≠ 0) (hn : l.length < L.fan ^ 31) : h < maxDepth := by
  show h < 32
  rcases hh with ⟨hx, -⟩ | ⟨-, ht, rfl⟩
  · exact absurd hx h0
  · cases h with
    | zero => omega
    | succ h =>
      have h1 := spine_height (hsp h0)
      apply Classical.byContradiction
      intro hc
      have hpos : 0 < L.fan := by
        apply Nat.pos_of_ne_zero
        intro hz; rw [hz] at hn; simp at hn
      have := Nat.pow_le_pow_right hpos (by omega : 31 ≤ h)
      omega

theorem bulk_go {L : Limits} (hL : L.Good) {env : Env} {fuel : Nat} (rest : List (Bytes × Bytes)) :
    ∀ {t : Txn} {h : Nat} {l0 : List (Bytes × Bytes)}, t.rdonly = false → t.freeRoot = 0 → Holds env t h l0 → h < maxDepth →
    (t.root ≠ 0 → Spine L (getPage env t) h t.root) → (t.root ≠ 0 → Full (getPage env t) h t.root) → Ascending (l0 ++ rest) → (∀ e ∈ rest, L.Fits (.leaf e.1 e.2)) →
    (l0 ++ rest).length < L.fan ^ 31 → t.newLast + 34 * rest.length < 2 ^ 64 →
    ∃ t' h', puts env (fuel + 1) t rest = .ok (List.replicate rest.length .success, t') ∧ Holds env t' h' (l0 ++ rest) ∧ h' < maxDepth ∧
      (t'.root ≠ 0 → Full (getPage env t') h' t'.root) := by
  induction rest with
  | nil =>
    intro t h l0 hr hfree hh hd hsp hfull hs hfit hn h64
    exact ⟨t, h, rfl, by simpa using hh, hd, hfull⟩
  | cons e rest ih =>
    obtain ⟨key, val⟩ := e
    intro t h l0 hr hfree hh hd hsp hfull hs hfit hn h64
    rw [List.length_cons] at h64
    have hgt : ∀ x ∈ l0.map Prod.fst, x < key := by
      intro x hx
      unfold Ascending at hs
      rw [List.map_append, List.map_cons, sorted_append] at hs
      exact hs.2.2 x hx key List.mem_cons_self
    obtain ⟨t1, h1, a1, a2, a3, a4, a5, a6, a7, a8⟩ := bulk_step hL (fuel := fuel) (hfit (key, val) List.mem_cons_self) hr hfree hh hgt hd hsp hfull (by omega)
    have hd1 : h1 < maxDepth := height_small a5 (fun _ => a6) a4 (by
      rw [List.length_append] at hn ⊢
      simp only [List.length_cons, List.length_nil] at hn ⊢
      omega)
    obtain ⟨t', h', b1, b2, b3⟩ := ih a2 a3 a5 hd1 (fun _ => a6) (fun _ => a7) (by simpa using hs)
      (fun e he => hfit e (List.mem_cons_of_mem _ he)) (by simpa using hn) (by omega)
    refine ⟨t', h', ?_, by simpa using b2, b3⟩
    unfold puts
    simp only [a1, b1, Res.ok_bind]
    rfl

theorem findPath_deep {env : Env} {t : Txn} {key : Bytes} (hk : key.length < 65536) (d : Nat) :
    ∀ {lo hi : Option Bytes} {h n : Nat}, WFT (getPage env t) h lo hi n → d ≤ h →
    (∀ x ∈ pagesOf (getPage env t) h n, x ≤ maxPgno env t) → findPath env t key d n = .ok (.error .general) := by
  induction d with
  | zero => intros; rfl
  | succ d ih =>
    intro lo hi h n hw hd hb
    obtain ⟨h, rfl⟩ : ∃ h', h = h' + 1 := ⟨h - 1, by omega⟩
    obtain ⟨p, h1, h2, h3, h4, h5, h6⟩ := hw
    obtain ⟨A, k, c, B, hr, hi, hc⟩ := childIdx_spec h3 h4 h5 (kids_ne_nil h6) hk
    rw [hr.1] at h6
    have := hb n (self_mem_pagesOf _ _ n)
    rw [findPath, if_neg (by omega), h1, Res.ok_bind, if_neg (by simp [h4]), if_neg (by simp [wf_isBranch h3 h4]), hi,
      Res.ok_bind, hc, Res.ok_bind, ih (kids_focus h6).1 (by omega) ?_, Res.ok_bind]
    intro x hx
    apply hb
    rw [pagesOf_succ h1, hr.1]
    exact List.mem_cons_of_mem _ (List.mem_flatMap.2 ⟨(k, c), by simp, hx⟩)

/-- A tree of more than 32 levels takes no further key: `put` fails with a general error and
changes nothing.  This is the reason for the bound on the number of keys below. -/
theorem deep_tree_refuses_put {env : Env} {t : Txn} {h fuel : Nat} {key val : Bytes} (hw : t.rdonly = false) (h0 : t.root ≠ 0)
    (ht : Tree env t h) (hd : 32 ≤ h) (hk : key.length < 65536) : put env fuel t key val = .ok (.general, t) := by
  unfold put putWith
  rw [if_neg (by simp [hw]), if_neg h0, findPath_deep hk maxDepth ht.wft hd (by
    intro x hx; unfold maxPgno; simpa [hw] using (ht.bound x hx).2), Res.ok_bind]

/-- C44, up to a number of entries that keeps the tree at 32 levels or less (a deeper tree refuses
keys, see `deep_tree_refuses_put`): the pairs `A ++ B` have strictly ascending keys, of `kl` to `kh` bytes, and with 6 bytes for header and slot the
entries have `m` to `M` bytes, where the bounds are so close to each other that half as many entries as a page can have at most (rounded up), and one more, fit
a page if they are of the largest size (`Limits.Good`).  Then, starting
from an empty database, all `put`s succeed, and after any number of them (`A`) `get` finds exactly
what was stored so far.  Without a bound on the ratio of the sizes the property is false, see `mixed_load_fails`. -/
theorem bulk_load_similar_partial {env : Env} {t : Txn} {m M kl kh fuel : Nat} {A B : List (Bytes × Bytes)} (hw : t.rdonly = false) (h0 : t.root = 0)
    (hfree : t.freeRoot = 0) (hs : ((A ++ B).map Prod.fst).Pairwise (· < ·)) (hL : (⟨m, M, kl, kh⟩ : Limits).Good)
    (hsize : ∀ e ∈ A ++ B, kl ≤ e.1.length ∧ e.1.length ≤ kh ∧ m ≤ e.1.length + e.2.length + 6 ∧ e.1.length + e.2.length + 6 ≤ M)
    (hn : (A ++ B).length < (4078 / (kh + 12) / 2) ^ 31) (h64 : t.newLast + 34 * (A ++ B).length < 2 ^ 64) :
    ∃ t1 t2, puts env (fuel + 1) t A = .ok (List.replicate A.length .success, t1) ∧
      puts env (fuel + 1) t1 B = .ok (List.replicate B.length .success, t2) ∧
      (∀ k : Bytes, k.length < 65536 → get env t1 32 k = .ok (KvMap.answer (fun k => A.lookup k) k)) ∧
      (∀ k : Bytes, k.length < 65536 → get env t2 32 k = .ok (KvMap.answer (fun k => (A ++ B).lookup k) k)) := by
  have hfit : ∀ e ∈ A ++ B, (⟨m, M, kl, kh⟩ : Limits).Fits (.leaf e.1 e.2) := by
    intro e he
    obtain ⟨e1, e2, e3, e4⟩ := hsize e he
    refine ⟨?_, ?_, fun _ => ⟨?_, ?_⟩⟩ <;> simp only [Item.key, Item.size] <;> omega
  have key : ∀ rest, (∀ e ∈ rest, e ∈ A ++ B) → Ascending rest → rest.length ≤ (A ++ B).length →
      ∃ t' h', puts env (fuel + 1) t rest = .ok (List.replicate rest.length .success, t') ∧ Holds env t' h' rest ∧ h' < maxDepth := by
    intro rest hsub hsr hlen
    obtain ⟨t', h', b1, b2, b3, -⟩ := bulk_go hL (fuel := fuel) rest (l0 := []) (h := 0) hw hfree (.inl ⟨h0, rfl⟩) (by decide) (fun hx => absurd h0 hx)
      (fun hx => absurd h0 hx)
      hsr (fun e he => hfit e (hsub e he)) (Nat.lt_of_le_of_lt hlen hn) (by omega)
    exact ⟨t', h', b1, b2, b3⟩
  have hsA : Ascending A := by
    unfold Ascending; rw [List.map_append] at hs; exact (sorted_append.1 hs).1
  obtain ⟨t1, g1, a1, a2, a3⟩ := key A (fun e he => List.mem_append_left _ he) hsA (by simp)
  obtain ⟨t2, g2, b1, b2, b3⟩ := key (A ++ B) (fun _ he => he) hs (Nat.le_refl _)
  have happ : ∀ (A B : List (Bytes × Bytes)) (t : Txn), puts env (fuel + 1) t (A ++ B) =
      (puts env (fuel + 1) t A >>= fun a => puts env (fuel + 1) a.2 B >>= fun b => .ok (a.1 ++ b.1, b.2)) := by
    intro A B
    induction A with
    | nil =>
      intro t
      show puts env (fuel + 1) t B = (puts env (fuel + 1) t B >>= fun b => .ok (b.1, b.2))
      cases puts env (fuel + 1) t B <;> rfl
    | cons e A ih =>
      intro t
      simp only [List.cons_append, puts]
      cases put env (fuel + 1) t e.1 e.2 with
      | ok a =>
        simp only [Res.ok_bind]
        rw [ih]
        cases puts env (fuel + 1) a.2 A with
        | ok b =>
          simp only [Res.ok_bind]
          cases puts env (fuel + 1) b.2 B <;> rfl
        | ub => rfl
        | div => rfl
      | ub => rfl
      | div => rfl
  have hb1 := b1
  rw [happ, a1, Res.ok_bind] at hb1
  obtain ⟨⟨st, t2'⟩, hb2, hb3⟩ := Res.bind_eq_ok.1 hb1
  simp only [Res.ok.injEq, Prod.mk.injEq] at hb3
  obtain ⟨hb3, rfl⟩ := hb3
  rw [List.length_append, ← List.replicate_append_replicate] at hb3
  have hst := List.append_cancel_left hb3
  subst hst
  refine ⟨t1, t2', a1, hb2, fun k hk => ?_, fun k hk => ?_⟩
  · exact get_answers ⟨A, a2, fun _ => rfl⟩ hk a3
  · exact get_answers ⟨A ++ B, b2, fun _ => rfl⟩ hk b3

/-- C44, up to a number of entries that keeps the tree at 32 levels or less (a deeper tree refuses
keys, see `deep_tree_refuses_put`; for keys of more than 1007 bytes, three or fewer to a branch page,
the bound is vacuous): the pairs `A ++ B` have strictly ascending keys, all keys have
the same length, all values have the same length, and two entries fit a page.  Then, starting
from an empty database, all `put`s succeed, and after any number of them (`A`) `get` finds exactly
what was stored so far. -/
theorem bulk_load_partial {env : Env} {t : Txn} {ks vs fuel : Nat} {A B : List (Bytes × Bytes)} (hw : t.rdonly = false) (h0 : t.root = 0)
    (hfree : t.freeRoot = 0) (hs : ((A ++ B).map Prod.fst).Pairwise (· < ·))
    (hsize : ∀ e ∈ A ++ B, e.1.length = ks ∧ e.2.length = vs) (h1 : 2 * (ks + vs + 6) ≤ 4078) (h2 : 2 * (ks + 12) ≤ 4078)
    (hn : (A ++ B).length < (4078 / (ks + 12) / 2) ^ 31) (h64 : t.newLast + 34 * (A ++ B).length < 2 ^ 64) :
    ∃ t1 t2, puts env (fuel + 1) t A = .ok (List.replicate A.length .success, t1) ∧
      puts env (fuel + 1) t1 B = .ok (List.replicate B.length .success, t2) ∧
      (∀ k : Bytes, k.length < 65536 → get env t1 32 k = .ok (KvMap.answer (fun k => A.lookup k) k)) ∧
      (∀ k : Bytes, k.length < 65536 → get env t2 32 k = .ok (KvMap.answer (fun k => (A ++ B).lookup k) k)) := by
  refine bulk_load_similar_partial hw h0 hfree hs (uniform_good h1 h2) (fun e he => ?_) hn h64
  obtain ⟨e1, e2⟩ := hsize e he
  omega

/-- C44 is false of the code if the sizes differ much: five pairs in ascending order, two small and three large; the last cannot be stored, and the attempt removes two
of the others. -/
theorem mixed_load_fails :
    putsGet [([97], [1]), ([98], [2]), ([99], val2), ([100], val2)] [99] = .ok (List.replicate 4 .success, some 1900) ∧
    putsGet [([97], [1]), ([98], [2]), ([99], val2), ([100], val2), ([101], val2)] [99] = .ok (List.replicate 4 .success ++ [.nospc], none) := by
  decide +kernel

/-- Paths of 40 to 55 bytes with values of 40 bytes: entries of 86 to 101 bytes. -/
example : (⟨86, 101, 40, 55⟩ : Limits).Good ∧ 10 ^ 15 < (4078 / (55 + 12) / 2) ^ 31 := ⟨⟨by decide, by decide, by decide, by decide, by decide⟩, by decide⟩

/-- A million keys of 8 bytes (the loop counter) meet the hypotheses. -/
example : 2 * (8 + 100 + 6) ≤ 4078 ∧ 2 * (8 + 12) ≤ 4078 ∧ 1000000 < (4078 / (8 + 12) / 2) ^ 31 ∧ 1 + 34 * 1000000 < 2 ^ 64 := by decide

example : putsGet [([97], val2), ([98], val2), ([99], val2), ([100], val2)] [98] = .ok (List.replicate 4 .success, some 1900) := by
  decide +kernel

end Verif.Db
