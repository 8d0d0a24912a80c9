import Verif.Matrix.Cuda
import Mathlib.Algebra.BigOperators.Intervals

set_option linter.unusedSectionVars false

namespace CoolDiff
open Finset

variable {K : Type} [Field K] [DecidableEq K]

theorem mem_grid {gx gy nx ny : ℕ} {t : Thr} :
    t ∈ grid gx gy nx ny ↔ t.bx < gx ∧ t.by' < gy ∧ t.tx < nx ∧ t.ty < ny := by
  rcases t with ⟨bx, by', tx, ty⟩
  simp only [grid, List.mem_flatMap, List.mem_map, mem_pairs, Thr.mk.injEq]
  constructor
  · rintro ⟨b, hb, t, ht, rfl, rfl, rfl, rfl⟩
    exact ⟨hb.2, hb.1, ht.2, ht.1⟩
  · rintro ⟨h1, h2, h3, h4⟩
    exact ⟨(by', bx), ⟨h2, h1⟩, (ty, tx), ⟨h4, h3⟩, rfl, rfl, rfl, rfl⟩

theorem grid_nodup (gx gy nx ny : ℕ) : (grid gx gy nx ny).Nodup := by
  rw [grid, List.nodup_flatMap]
  refine ⟨fun b _ => (List.nodup_map_iff fun p q h => ?_).2 (pairs_nodup _ _), ?_⟩
  · rcases p with ⟨a, b⟩; rcases q with ⟨c, d⟩
    simp only [Thr.mk.injEq, true_and] at h
    rw [h.1, h.2]
  · refine List.Pairwise.imp ?_ (pairs_nodup gy gx)
    intro b b' hb t ht ht'
    simp only [List.mem_map] at ht ht'
    obtain ⟨p, _, rfl⟩ := ht
    obtain ⟨q, _, hq⟩ := ht'
    simp only [Thr.mk.injEq] at hq
    exact hb (Prod.ext hq.2.1.symm hq.1.symm)

/-- Iterations that do nothing can be dropped. -/
theorem forEach_filter {ι : Type} (p : ι → Prop) [DecidablePred p] (body : ι → Mat K → Option (Mat K)) :
    ∀ (idx : List ι) (m : Mat K), forEach idx (fun n m => if p n then body n m else some m) m =
      forEach (idx.filter p) body m := by
  intro idx
  induction idx with
  | nil => intro m; rfl
  | cons a l ih =>
    intro m
    by_cases h : p a
    · rw [List.filter_cons_of_pos (by simpa using h)]
      simp only [forEach, List.foldlM_cons, if_pos h] at ih ⊢
      congr 1
      funext m'
      exact ih m'
    · rw [List.filter_cons_of_neg (by simpa using h), ← ih m]
      simp only [forEach, List.foldlM_cons, if_neg h]
      rfl

theorem blocks_cover {n t i : ℕ} (h : i < n) (ht : 0 < t) : i / t < Cuda.blocks n t := by
  rw [Cuda.blocks, Nat.div_lt_iff_lt_mul ht]
  have := Nat.div_add_mod (n + t - 1) t
  have h2 := Nat.mod_lt (n + t - 1) ht
  rw [Nat.mul_comm] at this
  omega

theorem blocks_pos {n t : ℕ} (h : 0 < n) (ht : 0 < t) : 0 < Cuda.blocks n t := by
  exact lt_of_le_of_lt (Nat.zero_le _) (blocks_cover h ht)

theorem blocks_le {n t g : ℕ} (h : n ≤ g * t) (ht : 0 < t) : Cuda.blocks n t ≤ g := by
  rw [Cuda.blocks]
  have : (n + t - 1) / t < g + 1 := by
    rw [Nat.div_lt_iff_lt_mul ht, Nat.add_mul]
    omega
  omega

/-- The sizes for which the grids of all kernels are within the limits of the device. -/
def Fits (rows cols : ℕ) : Prop := rows ≤ 65535 * 32 ∧ cols ≤ (2 ^ 31 - 1) * 32

theorem Fits.launch {M N : ℕ} (h : Fits M N) (hM : 0 < M) (hN : 0 < N) (k : Mat K → Option (Mat K)) (m : Mat K) :
    launch (Cuda.blocks N 32) (Cuda.blocks M 32) k m = k m := by
  rw [CoolDiff.launch, if_pos ⟨blocks_pos hN (by decide), blocks_le h.2 (by decide), blocks_pos hM (by decide),
    blocks_le h.1 (by decide)⟩]

/-- Single guarded writes, one per cell, in any order: every cell of the result gets its value. -/
theorem guarded_spec {ι : Type} (π : Sched) (idx : List ι) (hnd : idx.Nodup) (row col : ι → ℕ) {M N : ℕ}
    (hM : 0 < M) (hN : 0 < N) (hinj : ∀ p ∈ idx, ∀ q ∈ idx, row p = row q → col p = col q → p = q)
    (hcov : ∀ i j, i < M → j < N → ∃ p ∈ idx, row p = i ∧ col p = j)
    (f : ι → Mat K → Option K) (A : ℕ → ℕ → K) (m : Mat K) (hr : m.rows = M) (hc : m.cols = N) (hwf : m.WF)
    (hf : ∀ p ∈ idx, row p < M → col p < N → ∀ m' : Mat K,
      m'.data[row p * N + col p]? = m.data[row p * N + col p]? → f p m' = some (A (row p) (col p))) :
    ∃ m', forEach (π.run ι idx) (fun p m => if row p < M ∧ col p < N then
        (f p m).bind fun v => m.rawPut? (row p * N + col p) v else some m) m = some m' ∧ Rep m' M N A := by
  rw [forEach_filter (fun p => row p < M ∧ col p < N)]
  set l := (π.run ι idx).filter fun p => row p < M ∧ col p < N with hl
  have hmem : ∀ p, p ∈ l ↔ p ∈ idx ∧ row p < M ∧ col p < N := by
    intro p
    rw [hl, List.mem_filter, π.mem]
    simp
  have hlen : m.data.length = M * N := by rw [hwf.len, hr, hc]
  obtain ⟨m', h1, h2, h3, h4, h5, -⟩ := forEach_raw (fun p => row p * N + col p) f
    (fun p => A (row p) (col p)) l m
    (by
      refine List.Nodup.map_on ?_ ((π.nodup hnd).filter _)
      intro p hp q hq e
      obtain ⟨p1, p2, p3⟩ := (hmem p).1 hp
      obtain ⟨q1, q2, q3⟩ := (hmem q).1 hq
      obtain ⟨e1, e2⟩ := flat_inj p3 q3 e
      exact hinj p p1 q q1 e1 e2)
    (fun p hp => by
      obtain ⟨_, p2, p3⟩ := (hmem p).1 hp
      rw [hlen]; exact flat_lt p2 p3)
    (fun p hp m' _ _ _ e => by
      obtain ⟨p1, p2, p3⟩ := (hmem p).1 hp
      exact hf p p1 p2 p3 m' e)
  refine ⟨m', h1, Rep.of_raw ⟨by rw [h2, hr]; exact hM, by rw [h3, hc]; exact hN,
    by rw [h4, h2, h3, hlen, hr, hc]⟩ (h2.trans hr) (h3.trans hc) fun i j hi hj => ?_⟩
  obtain ⟨p, hp, rfl, rfl⟩ := hcov i j hi hj
  exact h5 p ((hmem p).2 ⟨hp, hi, hj⟩)

/-- The threads of a grid of square blocks address every element exactly once. -/
theorem grid_spec (π : Sched) {M N : ℕ} (hM : 0 < M) (hN : 0 < N) (f : Thr → Mat K → Option K)
    (A : ℕ → ℕ → K) (m : Mat K) (hr : m.rows = M) (hc : m.cols = N) (hwf : m.WF)
    (hf : ∀ t : Thr, t.tx < 32 → t.ty < 32 → t.by' * 32 + t.ty < M → t.bx * 32 + t.tx < N → ∀ m' : Mat K,
      m'.data[(t.by' * 32 + t.ty) * N + (t.bx * 32 + t.tx)]? = m.data[(t.by' * 32 + t.ty) * N + (t.bx * 32 + t.tx)]? →
        f t m' = some (A (t.by' * 32 + t.ty) (t.bx * 32 + t.tx))) :
    ∃ m', forEach (π.run Thr (grid (Cuda.blocks N 32) (Cuda.blocks M 32) 32 32)) (fun t m =>
        if t.by' * 32 + t.ty < M ∧ t.bx * 32 + t.tx < N then
        (f t m).bind fun v => m.rawPut? ((t.by' * 32 + t.ty) * N + (t.bx * 32 + t.tx)) v else some m) m =
      some m' ∧ Rep m' M N A := by
  refine guarded_spec π _ (grid_nodup _ _ _ _) (fun t => t.by' * 32 + t.ty) (fun t => t.bx * 32 + t.tx) hM hN
    ?_ ?_ f A m hr hc hwf ?_
  · intro p hp q hq e1 e2
    rw [mem_grid] at hp hq
    obtain ⟨h1, h2⟩ := flat_inj hp.2.2.2 hq.2.2.2 e1
    obtain ⟨h3, h4⟩ := flat_inj hp.2.2.1 hq.2.2.1 e2
    rcases p with ⟨a, b, c, d⟩; rcases q with ⟨a', b', c', d'⟩
    simp only at h1 h2 h3 h4
    rw [h1, h2, h3, h4]
  · intro i j hi hj
    refine ⟨⟨j / 32, i / 32, j % 32, i % 32⟩, mem_grid.2 ⟨blocks_cover hj (by decide), blocks_cover hi (by decide),
      Nat.mod_lt _ (by decide), Nat.mod_lt _ (by decide)⟩, ?_, ?_⟩ <;> exact div_mul_mod _ _
  · intro p hp h1 h2 m' e
    rw [mem_grid] at hp
    exact hf p hp.2.2.1 hp.2.2.2 h1 h2 m' e

namespace Cuda

/-- A fresh or reused GPU buffer has the requested shape. -/
theorem pool_spec (junk : ℕ → K) {result : Option (Mat K)} (h : Live result) {r c : ℕ} (hr : 0 < r)
    (hc : 0 < c) : ∃ m, pool junk result r c = some m ∧ m.rows = r ∧ m.cols = c ∧ m.WF := by
  cases result with
  | none =>
    exact ⟨_, by rw [pool, if_pos ⟨hr, hc⟩], rfl, rfl, hr, hc, by simp⟩
  | some m =>
    have hm := h m rfl
    rw [pool]
    by_cases e : r * c = m.rows * m.cols
    · simp only [if_pos e, Mat.reshape]
      exact ⟨_, rfl, rfl, rfl, hr, hc, by rw [e]; exact hm.len⟩
    · have : r ≠ m.rows ∨ c ≠ m.cols := by
        by_contra hn; push Not at hn; exact e (by rw [hn.1, hn.2])
      simp only [if_neg e, if_pos this]
      exact ⟨_, by rw [if_pos ⟨hr, hc⟩], rfl, rfl, hr, hc, by simp⟩

theorem pool_self (junk : ℕ → K) {m : Mat K} {r c : ℕ} (hr : m.rows = r) (hc : m.cols = c) :
    pool junk (some m) r c = some m := by
  subst hr; subst hc; simp [pool, Mat.reshape]

theorem perElement_spec (π : Sched) {M N : ℕ} (hM : 0 < M) (hN : 0 < N) (hfit : Fits M N)
    (f : ℕ → ℕ → Mat K → Option K) (A : ℕ → ℕ → K) (m : Mat K) (hr : m.rows = M) (hc : m.cols = N) (hwf : m.WF)
    (hf : ∀ i j, i < M → j < N → ∀ m' : Mat K, m'.data[i * N + j]? = m.data[i * N + j]? →
      f i j m' = some (A i j)) :
    ∃ m', perElement π M N f m = some m' ∧ Rep m' M N A := by
  rw [perElement, threadSize, hfit.launch hM hN]
  exact grid_spec π hM hN (fun t m => f (t.by' * 32 + t.ty) (t.bx * 32 + t.tx) m) A m hr hc hwf
    fun t _ _ h1 h2 m' e => hf _ _ h1 h2 m' e

/-- An operand while the kernel runs. -/
theorem read {junk : ℕ → K} {s : Src K} {result : Option (Mat K)} {M res : Mat K} {r c A}
    (h : s.mat? result = some M) (hM : Rep M r c A) (hp : pool junk result r c = some res)
    {m' : Mat K} {i j : ℕ} (hi : i < r) (hj : j < c) (hm' : m'.data[i * c + j]? = res.data[i * c + j]?) :
    (s.cur m').raw? (i * c + j) = some (A i j) := by
  cases s with
  | ext m => simp only [Src.mat?, Option.some.injEq] at h; subst h; exact hM.raw hi hj
  | self =>
    simp only [Src.mat?] at h; subst h
    rw [pool_self junk hM.rows hM.cols] at hp; cases hp
    simp only [Src.cur, Mat.raw?]; rw [hm']; exact hM.raw hi hj

theorem elementwise2_spec (op : K → K → K) (π : Sched) (junk : ℕ → K) {lhs rhs : Src K}
    {result : Option (Mat K)} (hlive : Live result) {L R : Mat K} {r c A B} (hl : lhs.mat? result = some L)
    (hL : Rep L r c A) (hr : rhs.mat? result = some R) (hR : Rep R r c B) (hfit : Fits r c) :
    ∃ m, elementwise2 op π junk lhs rhs result = some m ∧ Rep m r c (fun i j => op (A i j) (B i j)) := by
  obtain ⟨res, hres, rr, rc, rwf⟩ := pool_spec junk hlive hL.rpos hL.cpos
  obtain ⟨m, hm, hrep⟩ := perElement_spec π hL.rpos hL.cpos hfit (fun i j m => do
      let a ← (lhs.cur m).raw? (i * c + j)
      let b ← (rhs.cur m).raw? (i * c + j)
      pure (op a b)) (fun i j => op (A i j) (B i j)) res rr rc rwf
    (fun i j hi hj m' e => by
      simp only [read hl hL hres hi hj e, read hr hR hres hi hj e, Option.bind_eq_bind, Option.bind_some]
      rfl)
  refine ⟨m, ?_, hrep⟩
  simp only [elementwise2, hl, hr, Option.bind_eq_bind, Option.bind_some, hL.rows, hR.rows, hL.cols, hR.cols,
    and_self, if_true, hres]
  exact hm

theorem elementwise1_spec (op : K → K) (π : Sched) (junk : ℕ → K) {rhs : Src K}
    {result : Option (Mat K)} (hlive : Live result) {R : Mat K} {r c B}
    (hr : rhs.mat? result = some R) (hR : Rep R r c B) (hfit : Fits r c) :
    ∃ m, elementwise1 op π junk rhs result = some m ∧ Rep m r c (fun i j => op (B i j)) := by
  obtain ⟨res, hres, rr, rc, rwf⟩ := pool_spec junk hlive hR.rpos hR.cpos
  obtain ⟨m, hm, hrep⟩ := perElement_spec π hR.rpos hR.cpos hfit (fun i j m => do
      let a ← (rhs.cur m).raw? (i * c + j)
      pure (op a)) (fun i j => op (B i j)) res rr rc rwf
    (fun i j hi hj m' e => by
      simp only [read hr hR hres hi hj e, Option.bind_eq_bind, Option.bind_some]
      rfl)
  refine ⟨m, ?_, hrep⟩
  simp only [elementwise1, hr, Option.bind_eq_bind, Option.bind_some, hR.rows, hR.cols, hres]
  exact hm

theorem kron_spec (π : Sched) (junk : ℕ → K) {result : Option (Mat K)} (hlive : Live result) {L R : Mat K}
    {lr lc rr rc A B} (hL : Rep L lr lc A) (hR : Rep R rr rc B) (hfit : Fits (lr * rr) (lc * rc)) :
    ∃ m, kron π junk L R result = some m ∧ Rep m (lr * rr) (lc * rc) (fun i j =>
      A (i / rr) (j / rc) * B (i % rr) (j % rc)) := by
  have hr := Nat.mul_pos hL.rpos hR.rpos
  have hc := Nat.mul_pos hL.cpos hR.cpos
  obtain ⟨res, hres, rr', rc', rwf⟩ := pool_spec junk hlive hr hc
  obtain ⟨m, hm, hrep⟩ := perElement_spec π hr hc hfit (fun row col _ => do
    let a ← L.raw? (row / rr * lc + col / rc)
    let b ← R.raw? (row % rr * rc + col % rc)
    pure (a * b)) (fun i j => A (i / rr) (j / rc) * B (i % rr) (j % rc)) res rr' rc' rwf
    (fun i j hi hj m' _ => by
      simp only [hL.raw (div_lt_of_lt_mul' hi) (div_lt_of_lt_mul' hj),
        hR.raw (mod_lt_of_lt_mul hi) (mod_lt_of_lt_mul hj), Option.bind_eq_bind, Option.bind_some]
      rfl)
  refine ⟨m, ?_, hrep⟩
  simp only [kron, hL.rows, hL.cols, hR.rows, hR.cols, hres, Option.bind_eq_bind, Option.bind_some]
  exact hm

/-! ## Shared memory -/

theorem fold_tile {ι : Type} (cell : ι → ℕ × ℕ) (f : ι → Option (Option K)) (A : ℕ → ℕ → K) :
    ∀ (l : List ι) (t : Tile K), (∀ p ∈ l, f p = some none ∨ f p = some (some (A (cell p).1 (cell p).2))) →
      ∃ t', l.foldlM (fun (t : Tile K) p => (f p).map fun
          | some v => t.set (cell p).1 (cell p).2 v
          | none => t) t = some t' ∧
        (∀ a b, t a b = A a b → t' a b = A a b) ∧
        ∀ p ∈ l, f p ≠ some none → t' (cell p).1 (cell p).2 = A (cell p).1 (cell p).2 := by
  intro l
  induction l with
  | nil => intro t _; exact ⟨t, rfl, fun _ _ h => h, fun p hp => absurd hp List.not_mem_nil⟩
  | cons q l ih =>
    intro t h
    rcases h q (by simp) with hq | hq
    · obtain ⟨t', h1, h2, h3⟩ := ih t fun p hp => h p (by simp [hp])
      refine ⟨t', ?_, h2, fun p hp hn => ?_⟩
      · rw [List.foldlM_cons, hq]; exact h1
      · rcases List.mem_cons.1 hp with rfl | hp
        · exact absurd hq hn
        · exact h3 p hp hn
    · obtain ⟨t', h1, h2, h3⟩ := ih (t.set (cell q).1 (cell q).2 (A (cell q).1 (cell q).2))
        fun p hp => h p (by simp [hp])
      refine ⟨t', ?_, fun a b hab => h2 a b ?_, fun p hp hn => ?_⟩
      · rw [List.foldlM_cons, hq]; exact h1
      · rw [Tile.set]
        split
        · rename_i e; rw [e.1, e.2]
        · exact hab
      · rcases List.mem_cons.1 hp with rfl | hp
        · exact h2 _ _ (by rw [Tile.set, if_pos ⟨rfl, rfl⟩])
        · exact h3 p hp hn

theorem fillTile_spec {ι : Type} (π : Sched) (idx : List ι) (cell : ι → ℕ × ℕ) (f : ι → Option (Option K))
    (A : ℕ → ℕ → K) (t : Tile K)
    (h : ∀ p ∈ idx, f p = some none ∨ f p = some (some (A (cell p).1 (cell p).2))) :
    ∃ t', fillTile π idx cell f t = some t' ∧
      ∀ p ∈ idx, f p ≠ some none → t' (cell p).1 (cell p).2 = A (cell p).1 (cell p).2 := by
  obtain ⟨t', h1, -, h3⟩ := fold_tile cell f A (π.run ι idx) t fun p hp => h p (π.mem.1 hp)
  exact ⟨t', h1, fun p hp => h3 p (π.mem.2 hp)⟩

theorem loadA_spec (π : Sched) {A : Mat K} {M k : ℕ} {a : ℕ → ℕ → K} (hA : Rep A M k a) (by' t : ℕ) (s : Tile K) :
    ∃ s', loadA π A M k by' t s = some s' ∧ ∀ y x, y < 32 → x < 32 →
      s' y x = if by' * 32 + y < M ∧ t * 32 + x < k then a (by' * 32 + y) (t * 32 + x) else 0 := by
  have hread : ∀ p : ℕ × ℕ × ℕ, p.1 = t → by' * 32 + p.2.1 < M → t * 32 + p.2.2 < k →
      A.raw? ((by' * 32 + p.2.1) * k + t * 32 + p.2.2) = some (a (by' * 32 + p.2.1) (t * 32 + p.2.2)) := by
    intro p _ h1 h2
    rw [Nat.add_assoc]
    exact hA.raw h1 h2
  obtain ⟨s', h1, h2⟩ := fillTile_spec π ((pairs 32 32).map fun p => (t, p)) (fun p => p.2) (fun p =>
    if by' * 32 + p.2.1 < M ∧ t * 32 + p.2.2 < k then
      (A.raw? ((by' * 32 + p.2.1) * k + t * 32 + p.2.2)).map some else some (some 0))
    (fun y x => if by' * 32 + y < M ∧ t * 32 + x < k then a (by' * 32 + y) (t * 32 + x) else 0) s
    (fun p hp => by
      right
      simp only [List.mem_map] at hp
      obtain ⟨q, _, rfl⟩ := hp
      split
      · rename_i h
        rw [hread (t, q) rfl h.1 h.2]; rfl
      · rfl)
  refine ⟨s', h1, fun y x hy hx => h2 (t, (y, x)) ?_ ?_⟩
  · exact List.mem_map.2 ⟨(y, x), mem_pairs.2 ⟨hy, hx⟩, rfl⟩
  · split
    · rename_i h
      rw [hread (t, (y, x)) rfl h.1 h.2]; simp
    · simp

theorem loadB_spec (π : Sched) {B : Mat K} {k N : ℕ} {b : ℕ → ℕ → K} (hB : Rep B k N b) (bx t : ℕ) (s : Tile K) :
    ∃ s', loadB π B k N bx t s = some s' ∧ ∀ y x, y < 32 → x < 32 →
      s' y x = if bx * 32 + x < N ∧ t * 32 + y < k then b (t * 32 + y) (bx * 32 + x) else 0 := by
  obtain ⟨s', h1, h2⟩ := fillTile_spec π ((pairs 32 32).map fun p => (t, p)) (fun p => p.2) (fun p =>
    if bx * 32 + p.2.2 < N ∧ t * 32 + p.2.1 < k then
      (B.raw? ((t * 32 + p.2.1) * N + (bx * 32 + p.2.2))).map some else some (some 0))
    (fun y x => if bx * 32 + x < N ∧ t * 32 + y < k then b (t * 32 + y) (bx * 32 + x) else 0) s
    (fun p hp => by
      right
      split
      · rename_i h
        rw [hB.raw h.2 h.1]; rfl
      · rfl)
  refine ⟨s', h1, fun y x hy hx => h2 (t, (y, x)) ?_ ?_⟩
  · exact List.mem_map.2 ⟨(y, x), mem_pairs.2 ⟨hy, hx⟩, rfl⟩
  · split
    · rename_i h
      rw [hB.raw h.2 h.1]; simp
    · simp

theorem foldl_add_sum (g : ℕ → K) (v : K) (n : ℕ) :
    (List.range n).foldl (fun v i => v + g i) v = v + ∑ i ∈ range n, g i := by
  induction n with
  | zero => simp
  | succ n ih =>
    rw [List.range_succ, List.foldl_append, ih, sum_range_succ]
    simp [add_assoc]

/-- After `n` tiles every thread has summed the first `32 n` products. -/
theorem mulBlock_spec (π : Sched) (junk : Tile K) {A B : Mat K} {M k N : ℕ} {a b : ℕ → ℕ → K} (hA : Rep A M k a)
    (hB : Rep B k N b) (bx by' : ℕ) :
    ∃ value, mulBlock π junk A B M k N bx by' = some value ∧ ∀ y x, y < 32 → x < 32 → by' * 32 + y < M →
      bx * 32 + x < N → value y x = ∑ i ∈ range k, a (by' * 32 + y) i * b i (bx * 32 + x) := by
  have key : ∀ n, ∃ As Bs value, (List.range n).foldlM (fun (s : Tile K × Tile K × Tile K) t => do
      let As ← loadA π A M k by' t s.1
      let Bs ← loadB π B k N bx t s.2.1
      pure (As, Bs, accumulate As Bs s.2.2)) (junk, junk, fun _ _ => 0) = some (As, Bs, value) ∧
      ∀ y x, y < 32 → x < 32 → by' * 32 + y < M → bx * 32 + x < N → value y x =
        ∑ i ∈ range (n * 32), if i < k then a (by' * 32 + y) i * b i (bx * 32 + x) else 0 := by
    intro n
    induction n with
    | zero => exact ⟨junk, junk, fun _ _ => 0, rfl, fun y x _ _ _ _ => by simp⟩
    | succ n ih =>
      obtain ⟨As, Bs, value, h1, h2⟩ := ih
      obtain ⟨As', e1, e2⟩ := loadA_spec π hA by' n As
      obtain ⟨Bs', e3, e4⟩ := loadB_spec π hB bx n Bs
      refine ⟨As', Bs', accumulate As' Bs' value, ?_, fun y x hy hx hyM hxN => ?_⟩
      · rw [List.range_succ, List.foldlM_append, h1]
        simp only [Option.bind_eq_bind, Option.bind_some, List.foldlM_cons, List.foldlM_nil, e1, e3]
        rfl
      · rw [accumulate, tileSize, foldl_add_sum (fun i => As' y i * Bs' i x), h2 y x hy hx hyM hxN,
          Nat.add_mul, one_mul, sum_range_add]
        congr 1
        refine sum_congr rfl fun i hi => ?_
        have hi := mem_range.1 hi
        rw [e2 y i hy hi, e4 i x hi hx]
        by_cases h : n * 32 + i < k
        · rw [if_pos ⟨hyM, h⟩, if_pos ⟨hxN, h⟩, if_pos h]
        · rw [if_neg (fun e => h e.2), if_neg h, zero_mul]
  obtain ⟨As, Bs, value, h1, h2⟩ := key (blocks k 32)
  refine ⟨value, ?_, fun y x hy hx hyM hxN => ?_⟩
  · rw [mulBlock, tileSize, h1]; rfl
  · rw [h2 y x hy hx hyM hxN, ← sum_filter]
    refine sum_congr ?_ fun _ _ => rfl
    ext i
    simp only [mem_filter, mem_range]
    constructor
    · exact fun h => h.2
    · intro h
      refine ⟨?_, h⟩
      have h3 := (Nat.div_lt_iff_lt_mul (by decide : 0 < 32)).1 (blocks_cover h (by decide : 0 < 32))
      exact h3

theorem mul_spec (π : Sched) (junk : ℕ → K) (sh : ℕ → ℕ → Tile K) {result : Option (Mat K)} (hlive : Live result)
    {L R : Mat K} {m k n A B} (hL : Rep L m k A) (hR : Rep R k n B) (hfit : Fits m n) :
    ∃ M, mul π junk sh L R result = some M ∧ Rep M m n (fun i j => ∑ t ∈ range k, A i t * B t j) := by
  obtain ⟨res, hres, rr, rc, rwf⟩ := pool_spec junk hlive hL.rpos hR.cpos
  choose value hv1 hv2 using fun bx by' => mulBlock_spec π (sh bx by') hL hR bx by'
  obtain ⟨M, hM, hrep⟩ := grid_spec π hL.rpos hR.cpos (fun t _ => some (value t.bx t.by' t.ty t.tx))
    (fun i j => ∑ t ∈ range k, A i t * B t j) res rr rc rwf
    (fun t h1 h2 h3 h4 m' _ => by rw [hv2 t.bx t.by' t.ty t.tx h2 h1 h3 h4])
  refine ⟨M, ?_, hrep⟩
  rw [mul, if_pos (by rw [hL.cols, hR.rows])]
  simp only [hL.rows, hL.cols, hR.cols, hres, Option.bind_eq_bind, Option.bind_some, threadSize, tileSize,
    hfit.launch hL.rpos hR.cpos, hv1]
  simp only [Option.bind_some] at hM
  exact hM

/-! ## Transpose -/

theorem mem_rowSteps {i : ℕ} : i ∈ rowSteps ↔ ∃ q < 4, i = q * 8 := by
  simp only [rowSteps, tileDim, blockRows, List.mem_map, List.mem_range]
  constructor
  · rintro ⟨q, h, rfl⟩; exact ⟨q, h, rfl⟩
  · rintro ⟨q, h, rfl⟩; exact ⟨q, h, rfl⟩

theorem loadT_spec (π : Sched) {A : Mat K} {M N : ℕ} {a : ℕ → ℕ → K} (hA : Rep A M N a) (bx by' : ℕ) (s : Tile K) :
    ∃ s', loadT π A M N bx by' s = some s' ∧ ∀ y x, y < 32 → x < 32 → by' * 32 + y < M → bx * 32 + x < N →
      s' y x = a (by' * 32 + y) (bx * 32 + x) := by
  obtain ⟨s', h1, h2⟩ := fillTile_spec π ((pairs 8 32).flatMap fun p => rowSteps.map fun i => (i, p))
    (fun p => (p.2.1 + p.1, p.2.2)) (fun p =>
      if bx * 32 + p.2.2 < N ∧ by' * 32 + p.2.1 + p.1 < M then
        (A.raw? ((by' * 32 + p.2.1 + p.1) * N + (bx * 32 + p.2.2))).map some else some none)
    (fun y x => a (by' * 32 + y) (bx * 32 + x)) s
    (fun p hp => by
      split
      · rename_i h
        right
        rw [hA.raw h.2 h.1, Nat.add_assoc]; rfl
      · exact Or.inl rfl)
  refine ⟨s', h1, fun y x hy hx hyM hxN => ?_⟩
  have hyd : y % 8 + y / 8 * 8 = y := by omega
  have := h2 (y / 8 * 8, (y % 8, x)) (by
      simp only [List.mem_flatMap, List.mem_map]
      exact ⟨(y % 8, x), mem_pairs.2 ⟨Nat.mod_lt _ (by decide), hx⟩, _,
        mem_rowSteps.2 ⟨y / 8, by omega, rfl⟩, rfl⟩)
    (by
      have e : by' * 32 + y % 8 + y / 8 * 8 = by' * 32 + y := by omega
      simp only [e, hyM, hxN, and_self, if_true, hA.raw hyM hxN]
      simp)
  simpa only [hyd] using this

theorem transpose_spec (π : Sched) (junk : ℕ → K) (sh : ℕ → ℕ → Tile K) {result : Option (Mat K)}
    (hlive : Live result) {R : Mat K} {m n A} (hR : Rep R m n A) (hfit : Fits m n) :
    ∃ M, transpose π junk sh R result = some M ∧ Rep M n m (fun i j => A j i) := by
  obtain ⟨res, hres, rr, rc, rwf⟩ := pool_spec junk hlive hR.cpos hR.rpos
  choose tile ht1 ht2 using fun bx by' => loadT_spec π hR bx by' (sh bx by')
  have hmem : ∀ p : ℕ × Thr, p ∈ (grid (blocks n 32) (blocks m 32) 32 8).flatMap
      (fun t => rowSteps.map fun i => (i, t)) ↔ (∃ q < 4, p.1 = q * 8) ∧ p.2.bx < blocks n 32 ∧
        p.2.by' < blocks m 32 ∧ p.2.tx < 32 ∧ p.2.ty < 8 := by
    rintro ⟨i, t⟩
    simp only [List.mem_flatMap, List.mem_map, Prod.mk.injEq]
    constructor
    · rintro ⟨t', ht', i', hi', rfl, rfl⟩
      exact ⟨mem_rowSteps.1 hi', mem_grid.1 ht'⟩
    · rintro ⟨h1, h2⟩
      exact ⟨t, mem_grid.2 h2, i, mem_rowSteps.2 h1, rfl, rfl⟩
  obtain ⟨M, hM, hrep⟩ := guarded_spec π ((grid (blocks n 32) (blocks m 32) 32 8).flatMap
      fun t => rowSteps.map fun i => (i, t))
    (by
      rw [List.nodup_flatMap]
      refine ⟨fun t _ => (List.nodup_map_iff fun p q h => ?_).2 (by decide), ?_⟩
      · simpa using h
      · refine List.Pairwise.imp ?_ (grid_nodup _ _ _ _)
        intro t t' hne p hp hp'
        simp only [List.mem_map] at hp hp'
        obtain ⟨i, _, rfl⟩ := hp
        obtain ⟨j, _, e⟩ := hp'
        simp only [Prod.mk.injEq] at e
        exact hne e.2.symm)
    (fun p => p.2.bx * 32 + p.2.ty + p.1) (fun p => p.2.by' * 32 + p.2.tx) hR.cpos hR.rpos
    (by
      rintro ⟨i, bx, by', tx, ty⟩ hp ⟨i', bx', by'', tx', ty'⟩ hq e1 e2
      obtain ⟨⟨q, hq4, hqi⟩, -, -, htx, hty⟩ := (hmem _).1 hp
      obtain ⟨⟨q', hq4', hqi'⟩, -, -, htx', hty'⟩ := (hmem _).1 hq
      simp only at hqi htx hty hqi' htx' hty' e1 e2
      have h1 : bx = bx' := by omega
      have h2 : by' = by'' := by omega
      have h3 : tx = tx' := by omega
      have h4 : q = q' := by omega
      have h5 : ty = ty' := by omega
      subst h1 h2 h3 h4 h5
      rw [hqi, hqi'])
    (by
      intro i j hi hj
      refine ⟨(i % 32 / 8 * 8, ⟨i / 32, j / 32, j % 32, i % 8⟩), (hmem _).2 ⟨⟨i % 32 / 8, by omega, rfl⟩,
        blocks_cover hi (by decide), blocks_cover hj (by decide), Nat.mod_lt _ (by decide),
        Nat.mod_lt _ (by decide)⟩, ?_, ?_⟩
      · show i / 32 * 32 + i % 8 + i % 32 / 8 * 8 = i
        omega
      · exact div_mul_mod _ _)
    (fun p _ => some (tile p.2.bx p.2.by' p.2.tx (p.2.ty + p.1))) (fun i j => A j i) res rr rc rwf
    (fun p hp h1 h2 m' _ => by
      obtain ⟨⟨q, hq4, hqi⟩, -, -, htx, hty⟩ := (hmem _).1 hp
      rw [ht2 p.2.bx p.2.by' p.2.tx (p.2.ty + p.1) htx (by omega) h2 (by omega), Nat.add_assoc])
  refine ⟨M, ?_, hrep⟩
  simp only [transpose, hR.rows, hR.cols, hres, Option.bind_eq_bind, Option.bind_some, tileDim, blockRows,
    hfit.launch hR.rpos hR.cpos, ht1]
  simp only [Option.bind_some, And.comm (a := _ < n)] at hM
  exact hM

end Cuda

end CoolDiff
