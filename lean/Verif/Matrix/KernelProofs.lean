import Verif.Matrix.Kernels
import Mathlib.Data.List.ProdSigma

set_option linter.unusedSectionVars false

namespace CoolDiff
open Finset

variable {K : Type} [Field K] [DecidableEq K]

/-- A result pointer that is null or points to a live matrix. -/
def Live (result : Option (Mat K)) : Prop := ∀ m, result = some m → m.WF

theorem Live.none : Live (none : Option (Mat K)) := fun _ h => nomatch h

theorem Live.some {m : Mat K} (h : m.WF) : Live (some m) := fun _ e => by cases e; exact h

theorem Live.resetZero {b : Option (Mat K)} (h : Live b) : Live (b.map Mat.resetZero) := by
  intro m hm
  cases b with
  | none => exact nomatch hm
  | some x =>
    cases hm
    have hx := h x rfl
    exact ⟨hx.rpos, hx.cpos, by simpa [Mat.resetZero] using hx.len⟩

namespace Mat

theorem new_spec {r c : ℕ} (hr : 0 < r) (hc : 0 < c) :
    ∃ m : Mat K, new r c = some m ∧ Rep m r c (fun _ _ => 0) := by
  refine ⟨⟨r, c, List.replicate (r * c) 0⟩, by rw [new, if_pos ⟨hr, hc⟩], hr, hc, rfl, rfl,
    by simp, ?_⟩
  intro i j hi hj
  rw [get?, if_pos ⟨hi, hj⟩, List.getElem?_replicate, if_pos (flat_lt hi hj)]

theorem newFill_spec {r c : ℕ} (hr : 0 < r) (hc : 0 < c) (v : K) :
    ∃ m : Mat K, newFill r c v = some m ∧ Rep m r c (fun _ _ => v) := by
  refine ⟨⟨r, c, List.replicate (r * c) v⟩, by rw [newFill, if_pos ⟨hr, hc⟩], hr, hc, rfl, rfl,
    by simp, ?_⟩
  intro i j hi hj
  rw [get?, if_pos ⟨hi, hj⟩, List.getElem?_replicate, if_pos (flat_lt hi hj)]

/-- The requested buffer always exists and has the requested shape. -/
theorem pool_spec {result : Option (Mat K)} (h : Live result) {r c : ℕ} (hr : 0 < r) (hc : 0 < c) :
    ∃ m, pool result r c = some m ∧ m.rows = r ∧ m.cols = c ∧ m.WF := by
  cases result with
  | none =>
    obtain ⟨m, h1, h2⟩ := new_spec (K := K) hr hc
    exact ⟨m, h1, h2.rows, h2.cols, h2.wf⟩
  | some m =>
    have hm := h m rfl
    rw [pool]
    by_cases e : r * c = m.rows * m.cols
    · simp only [if_pos e, reshape]
      exact ⟨_, rfl, rfl, rfl, hr, hc, by rw [e]; exact hm.len⟩
    · have : r ≠ m.rows ∨ c ≠ m.cols := by
        by_contra hn; push Not at hn; exact e (by rw [hn.1, hn.2])
      simp only [if_neg e, if_pos this]
      obtain ⟨m, h1, h2⟩ := new_spec (K := K) hr hc
      exact ⟨m, h1, h2.rows, h2.cols, h2.wf⟩

/-- Requesting the shape a matrix already has returns the matrix itself, contents included. -/
theorem pool_self {m : Mat K} {r c : ℕ} (hr : m.rows = r) (hc : m.cols = c) :
    pool (some m) r c = some m := by
  subst hr; subst hc; simp [pool, reshape]

theorem pool_none {r c : ℕ} (hr : 0 < r) (hc : 0 < c) :
    ∃ m : Mat K, pool none r c = some m ∧ Rep m r c (fun _ _ => 0) := new_spec hr hc

end Mat

theorem Rep.raw {m : Mat K} {r c A} (h : Rep m r c A) {i j : ℕ} (hi : i < r) (hj : j < c) :
    m.raw? (i * c + j) = some (A i j) := by
  have := h.elem i j hi hj
  rw [Mat.get?, if_pos ⟨by rw [h.rows]; exact hi, by rw [h.cols]; exact hj⟩, h.cols] at this
  exact this

theorem Rep.of_raw {m : Mat K} {r c : ℕ} {A : ℕ → ℕ → K} (hwf : m.WF) (hr : m.rows = r)
    (hc : m.cols = c) (h : ∀ i j, i < r → j < c → m.data[i * c + j]? = some (A i j)) :
    Rep m r c A := by
  subst hr; subst hc
  refine ⟨hwf.rpos, hwf.cpos, rfl, rfl, hwf.len, ?_⟩
  intro i j hi hj
  rw [Mat.get?, if_pos ⟨hi, hj⟩]; exact h i j hi hj

theorem Rep.raw_flat {m : Mat K} {r c A} (h : Rep m r c A) {n : ℕ} (hn : n < r * c) :
    m.raw? n = some (A (n / c) (n % c)) := by
  have := h.raw (div_lt_of_lt_mul' hn) (mod_lt_of_lt_mul hn)
  rwa [div_mul_mod] at this

/-- Two buffers holding the same matrix are equal. -/
theorem Rep.ext {m m' : Mat K} {r c A} (h : Rep m r c A) (h' : Rep m' r c A) : m = m' := by
  rcases m with ⟨r1, c1, d1⟩; rcases m' with ⟨r2, c2, d2⟩
  have e1 := h.rows; have e2 := h.cols; have e3 := h'.rows; have e4 := h'.cols
  simp only at e1 e2 e3 e4; subst e1; subst e2; subst e3; subst e4
  congr 1
  apply List.ext_getElem?
  intro n
  by_cases hn : n < r2 * c2
  · have h1 := h.raw_flat hn; have h2 := h'.raw_flat hn
    simp only [Mat.raw?] at h1 h2; rw [h1, h2]
  · have l1 := h.len; have l2 := h'.len
    simp only at l1 l2
    rw [List.getElem?_eq_none (by omega), List.getElem?_eq_none (by omega)]

/-- Write loop through raw cells where an iteration may read the cell it is about to write. -/
theorem forEach_raw {ι : Type} (addr : ι → ℕ) (f : ι → Mat K → Option K) (val : ι → K) :
    ∀ (idx : List ι) (m : Mat K), (idx.map addr).Nodup →
      (∀ n ∈ idx, addr n < m.data.length) →
      (∀ n ∈ idx, ∀ m' : Mat K, m'.rows = m.rows → m'.cols = m.cols →
        m'.data.length = m.data.length → m'.data[addr n]? = m.data[addr n]? →
        f n m' = some (val n)) →
      ∃ m', forEach idx (fun n m => do let v ← f n m; m.rawPut? (addr n) v) m = some m' ∧
        m'.rows = m.rows ∧ m'.cols = m.cols ∧ m'.data.length = m.data.length ∧
        (∀ n ∈ idx, m'.data[addr n]? = some (val n)) ∧
        (∀ l, (∀ n ∈ idx, addr n ≠ l) → m'.data[l]? = m.data[l]?) := by
  intro idx
  induction idx with
  | nil =>
    intro m _ _ _
    exact ⟨m, rfl, rfl, rfl, rfl, fun n hn => absurd hn List.not_mem_nil, fun _ _ => rfl⟩
  | cons a l ih =>
    intro m hnd hb hf
    rw [List.map_cons, List.nodup_cons] at hnd
    let m1 : Mat K := { m with data := m.data.set (addr a) (val a) }
    have hne : ∀ n ∈ l, addr n ≠ addr a := fun n hn e =>
      hnd.1 (e ▸ List.mem_map_of_mem hn)
    have hm1 : ∀ k, k ≠ addr a → m1.data[k]? = m.data[k]? := by
      intro k hk
      simp only [m1]; rw [List.getElem?_set, if_neg (fun e => hk e.symm)]
    obtain ⟨m2, h2, r2, c2, l2, w2, u2⟩ := ih m1 hnd.2
      (fun n hn => by simp only [m1, List.length_set]; exact hb n (List.mem_cons_of_mem _ hn))
      (fun n hn m' e1 e2 e3 e4 => hf n (List.mem_cons_of_mem _ hn) m' e1 e2
        (by rw [e3]; simp [m1]) (by rw [e4, hm1 _ (hne n hn)]))
    refine ⟨m2, ?_, r2, c2, by rw [l2]; simp [m1], ?_, ?_⟩
    · rw [forEach, List.foldlM_cons, hf a (by simp) m rfl rfl rfl rfl]
      simp only [Option.bind_eq_bind, Option.bind_some, Mat.rawPut?,
        if_pos (hb a (by simp))]
      exact h2
    · intro n hn
      rcases List.mem_cons.1 hn with rfl | hn'
      · rw [u2 _ (fun k hk => hne k hk)]
        simp only [m1]; rw [List.getElem?_set]; simp [hb n (by simp)]
      · exact w2 n hn'
    · intro k hk
      rw [u2 k (fun n hn => hk n (List.mem_cons_of_mem _ hn)), hm1 k (fun e => hk a (by simp) e.symm)]

theorem pairs_nodup (n m : ℕ) : (pairs n m).Nodup :=
  List.Nodup.product List.nodup_range List.nodup_range

theorem pairs_addr_nodup (r c : ℕ) : ((pairs r c).map fun p => p.1 * c + p.2).Nodup := by
  apply List.Nodup.map_on _ (pairs_nodup r c)
  intro p hp q hq e
  rw [mem_pairs] at hp hq
  obtain ⟨h1, h2⟩ := flat_inj hp.2 hq.2 e
  exact Prod.ext h1 h2

/-! ## Element-wise kernels -/

theorem Src.read {s : Src K} {result : Option (Mat K)} {M res : Mat K} {r c A}
    (h : s.mat? result = some M) (hM : Rep M r c A) (hp : Mat.pool result r c = some res)
    {m' : Mat K} {n : ℕ} (hn : n < r * c) (hm' : m'.data[n]? = res.data[n]?) :
    (s.cur m').raw? n = some (A (n / c) (n % c)) := by
  cases s with
  | ext m => simp only [Src.mat?, Option.some.injEq] at h; subst h; exact hM.raw_flat hn
  | self =>
    simp only [Src.mat?] at h; subst h
    rw [Mat.pool_self hM.rows hM.cols] at hp; cases hp
    simp only [Src.cur, Mat.raw?]; rw [hm']; exact hM.raw_flat hn

theorem elementwise2_spec (op : K → K → K) (π : Sched) {lhs rhs : Src K} {result : Option (Mat K)}
    (hlive : Live result) {L R : Mat K} {r c A B} (hl : lhs.mat? result = some L)
    (hL : Rep L r c A) (hr : rhs.mat? result = some R) (hR : Rep R r c B) :
    ∃ m, elementwise2 op π lhs rhs result = some m ∧ Rep m r c (fun i j => op (A i j) (B i j)) := by
  obtain ⟨res, hres, rr, rc, rwf⟩ := Mat.pool_spec hlive hL.rpos hL.cpos
  have hlen : res.data.length = r * c := by rw [rwf.len, rr, rc]
  obtain ⟨m, hm, m1, m2, m3, m4, _⟩ := forEach_raw (fun n => n)
    (fun n m => do
      let a ← (lhs.cur m).raw? n
      let b ← (rhs.cur m).raw? n
      pure (op a b))
    (fun n => op (A (n / c) (n % c)) (B (n / c) (n % c)))
    (π.run ℕ (List.range (r * c))) res (by simpa using π.nodup List.nodup_range)
    (fun n hn => by rw [π.mem, List.mem_range] at hn; rw [hlen]; exact hn)
    (fun n hn m' _ _ _ e => by
      rw [π.mem, List.mem_range] at hn
      rw [Src.read hl hL hres hn e, Src.read hr hR hres hn e]; rfl)
  refine ⟨m, ?_, ?_⟩
  · simp only [elementwise2, hl, hr, Option.bind_eq_bind, Option.bind_some, hL.rows, hR.rows,
      hR.cols, hL.cols, and_self, if_true, hres, transform2]
    rw [← hm]
    simp only [bind_assoc, pure_bind, Option.bind_eq_bind, Option.bind_assoc]
    rfl
  · refine Rep.of_raw ⟨by rw [m1]; exact rwf.rpos, by rw [m2]; exact rwf.cpos,
      by rw [m3, m1, m2]; exact rwf.len⟩ (m1.trans rr) (m2.trans rc) ?_
    intro i j hi hj
    have := m4 (i * c + j) (by rw [π.mem, List.mem_range]; exact flat_lt hi hj)
    simpa only [flat_div hj, flat_mod hj] using this

theorem elementwise1_spec (op : K → K) (π : Sched) {rhs : Src K} {result : Option (Mat K)}
    (hlive : Live result) {R : Mat K} {r c B} (hr : rhs.mat? result = some R) (hR : Rep R r c B) :
    ∃ m, elementwise1 op π rhs result = some m ∧ Rep m r c (fun i j => op (B i j)) := by
  obtain ⟨res, hres, rr, rc, rwf⟩ := Mat.pool_spec hlive hR.rpos hR.cpos
  have hlen : res.data.length = r * c := by rw [rwf.len, rr, rc]
  obtain ⟨m, hm, m1, m2, m3, m4, _⟩ := forEach_raw (fun n => n)
    (fun n m => do
      let b ← (rhs.cur m).raw? n
      pure (op b))
    (fun n => op (B (n / c) (n % c)))
    (π.run ℕ (List.range (r * c))) res (by simpa using π.nodup List.nodup_range)
    (fun n hn => by rw [π.mem, List.mem_range] at hn; rw [hlen]; exact hn)
    (fun n hn m' _ _ _ e => by
      rw [π.mem, List.mem_range] at hn
      rw [Src.read hr hR hres hn e]; rfl)
  refine ⟨m, ?_, ?_⟩
  · simp only [elementwise1, hr, Option.bind_eq_bind, Option.bind_some, hR.rows,
      hR.cols, hres, transform1]
    rw [← hm]
    simp only [bind_assoc, pure_bind, Option.bind_eq_bind, Option.bind_assoc]
    rfl
  · refine Rep.of_raw ⟨by rw [m1]; exact rwf.rpos, by rw [m2]; exact rwf.cpos,
      by rw [m3, m1, m2]; exact rwf.len⟩ (m1.trans rr) (m2.trans rc) ?_
    intro i j hi hj
    have := m4 (i * c + j) (by rw [π.mem, List.mem_range]; exact flat_lt hi hj)
    simpa only [flat_div hj, flat_mod hj] using this

/-! ## Eigen assignment -/

theorem eigenAssign_spec {r c : ℕ} {A : ℕ → ℕ → K} (f : ℕ → ℕ → Mat K → Option K) (res : Mat K)
    (hwf : res.WF) (hr : res.rows = r) (hc : res.cols = c)
    (hf : ∀ i j, i < r → j < c → ∀ m' : Mat K, m'.data[i * c + j]? = res.data[i * c + j]? →
      f i j m' = some (A i j)) :
    ∃ m, eigenAssign r c f res = some m ∧ Rep m r c A := by
  obtain ⟨m, hm, m1, m2, m3, m4, _⟩ := forEach_raw (fun p : ℕ × ℕ => p.1 * c + p.2)
    (fun p m => f p.1 p.2 m) (fun p => A p.1 p.2) (pairs r c) res (pairs_addr_nodup r c)
    (fun p hp => by rw [mem_pairs] at hp; rw [hwf.len, hr, hc]; exact flat_lt hp.1 hp.2)
    (fun p hp m' _ _ _ e => by rw [mem_pairs] at hp; exact hf p.1 p.2 hp.1 hp.2 m' e)
  refine ⟨m, hm, Rep.of_raw ⟨by rw [m1]; exact hwf.rpos, by rw [m2]; exact hwf.cpos,
      by rw [m3, m1, m2]; exact hwf.len⟩ (m1.trans hr) (m2.trans hc) ?_⟩
  intro i j hi hj
  exact m4 (i, j) (by rw [mem_pairs]; exact ⟨hi, hj⟩)

theorem Eig.elementwise2_spec (op : K → K → K) {lhs rhs : Src K} {result : Option (Mat K)}
    (hlive : Live result) {L R : Mat K} {r c A B} (hl : lhs.mat? result = some L)
    (hL : Rep L r c A) (hr : rhs.mat? result = some R) (hR : Rep R r c B) :
    ∃ m, Eig.elementwise2 op lhs rhs result = some m ∧
      Rep m r c (fun i j => op (A i j) (B i j)) := by
  obtain ⟨res, hres, rr, rc, rwf⟩ := Mat.pool_spec hlive hL.rpos hL.cpos
  obtain ⟨m, hm, hrep⟩ := eigenAssign_spec (A := fun i j => op (A i j) (B i j))
    (fun i j m => do
      let a ← (lhs.cur m).raw? (i * c + j)
      let b ← (rhs.cur m).raw? (i * c + j)
      pure (op a b)) res rwf rr rc
    (fun i j hi hj m' e => by
      rw [Src.read hl hL hres (flat_lt hi hj) e, Src.read hr hR hres (flat_lt hi hj) e]
      simp only [flat_div hj, flat_mod hj]; rfl)
  refine ⟨m, ?_, hrep⟩
  simp only [Eig.elementwise2, hl, hr, Option.bind_eq_bind, Option.bind_some, hL.rows, hR.rows,
      hR.cols, hL.cols, and_self, if_true, hres]
  exact hm

theorem Eig.elementwise1_spec (op : K → K) {rhs : Src K} {result : Option (Mat K)}
    (hlive : Live result) {R : Mat K} {r c B} (hr : rhs.mat? result = some R) (hR : Rep R r c B) :
    ∃ m, Eig.elementwise1 op rhs result = some m ∧ Rep m r c (fun i j => op (B i j)) := by
  obtain ⟨res, hres, rr, rc, rwf⟩ := Mat.pool_spec hlive hR.rpos hR.cpos
  obtain ⟨m, hm, hrep⟩ := eigenAssign_spec (A := fun i j => op (B i j))
    (fun i j m => do
      let b ← (rhs.cur m).raw? (i * c + j)
      pure (op b)) res rwf rr rc
    (fun i j hi hj m' e => by
      rw [Src.read hr hR hres (flat_lt hi hj) e]
      simp only [flat_div hj, flat_mod hj]; rfl)
  refine ⟨m, ?_, hrep⟩
  simp only [Eig.elementwise1, hr, Option.bind_eq_bind, Option.bind_some, hR.rows,
      hR.cols, hres]
  exact hm

/-! ## Product -/

theorem foldlM_sum {β : Type} (f : β → Option K) (g : β → K) (l : List β)
    (h : ∀ b ∈ l, f b = some (g b)) (a : K) :
    l.foldlM (fun t b => do let x ← f b; pure (t + x)) a = some (a + (l.map g).sum) := by
  induction l generalizing a with
  | nil => simp
  | cons b l ih =>
    rw [List.foldlM_cons, h b (by simp)]
    simp only [Option.bind_eq_bind, Option.bind_some]
    rw [show (pure (a + g b) : Option K) = some (a + g b) from rfl, Option.bind_some]
    have := ih (fun b hb => h b (List.mem_cons_of_mem _ hb)) (a + g b)
    simp only [Option.bind_eq_bind] at this
    rw [this]; simp [add_assoc]

theorem foldrM_sum {β : Type} (f : β → Option K) (g : β → K) (l : List β)
    (h : ∀ b ∈ l, f b = some (g b)) (a : K) :
    l.foldrM (fun b t => do let x ← f b; pure (x + t)) a = some ((l.map g).sum + a) := by
  induction l with
  | nil => simp
  | cons b l ih =>
    rw [List.foldrM_cons, ih (fun b hb => h b (List.mem_cons_of_mem _ hb))]
    simp only [Option.bind_eq_bind, Option.bind_some]
    rw [h b (by simp)]
    simp [add_assoc]

theorem sum_range_list (g : ℕ → K) (n : ℕ) : ((List.range n).map g).sum = ∑ k ∈ range n, g k := by
  induction n with
  | zero => simp
  | succ n ih => rw [List.range_succ, Finset.sum_range_succ, List.map_append, List.sum_append, ih]; simp

theorem Naive.mulInner_spec {L R : Mat K} {r n c A B} (hL : Rep L r n A) (hR : Rep R n c B)
    {i j : ℕ} (hi : i < r) (hj : j < c) :
    Naive.mulInner L R i j = some (∑ k ∈ range n, A i k * B k j) := by
  have := foldlM_sum (fun m => do let a ← L.get? i m; let b ← R.get? m j; pure (a * b))
    (fun k => A i k * B k j) (List.range n) (fun k hk => by
      rw [List.mem_range] at hk
      rw [hL.elem i k hi hk, hR.elem k j hk hj]; rfl) 0
  rw [zero_add, sum_range_list] at this
  rw [← this, Naive.mulInner, hR.rows]
  simp only [Option.bind_eq_bind, Option.bind_assoc]; rfl

theorem Naive.mul_spec (π : Sched) {L R : Mat K} {result : Option (Mat K)} (hlive : Live result)
    {r n c A B} (hL : Rep L r n A) (hR : Rep R n c B) :
    ∃ m, Naive.mul π L R result = some m ∧ Rep m r c (fun i j => ∑ k ∈ range n, A i k * B k j) := by
  obtain ⟨res, hres, rr, rc, rwf⟩ := Mat.pool_spec hlive hL.rpos hR.cpos
  obtain ⟨m, hm, hrep⟩ := forEach_rep (fun k => k / c) (fun k => k % c)
    (fun k => ∑ x ∈ range n, A (k / c) x * B x (k % c))
    (fun k m => do
      let j := k % c
      let i := (k - j) / c
      let tmp ← Naive.mulInner L R i j
      m.put? i j tmp)
    (fun i j => ∑ x ∈ range n, A i x * B x j)
    (π.run ℕ (List.range (r * c))) res rwf
    (fun k hk m' _ _ => by
      rw [π.mem, List.mem_range] at hk
      simp only [row_eq]
      rw [Naive.mulInner_spec hL hR (div_lt_of_lt_mul' hk) (mod_lt_of_lt_mul hk)]; rfl)
    (fun k hk => by rw [π.mem, List.mem_range] at hk; rw [rr]; exact div_lt_of_lt_mul' hk)
    (fun k hk => by rw [π.mem, List.mem_range] at hk; rw [rc]; exact mod_lt_of_lt_mul hk)
    (fun k _ => rfl)
    (fun i j hi hj => Or.inl ⟨i * c + j, by
      rw [π.mem, List.mem_range]; rw [rr] at hi; rw [rc] at hj; exact flat_lt hi hj,
      flat_div (by rw [rc] at hj; exact hj), flat_mod (by rw [rc] at hj; exact hj)⟩)
  refine ⟨m, ?_, by rw [rr, rc] at hrep; exact hrep⟩
  rw [Naive.mul, if_pos (by rw [hL.cols, hR.rows])]
  simp only [hL.rows, hR.cols, hres, Option.bind_eq_bind, Option.bind_some]
  exact hm

theorem Eig.mulCoeff_spec {L R : Mat K} {r n c A B} (hL : Rep L r n A) (hR : Rep R n c B)
    {i j : ℕ} (hi : i < r) (hj : j < c) :
    Eig.mulCoeff L R i j = some (∑ k ∈ range n, A i k * B k j) := by
  have := foldrM_sum (fun m => do
      let a ← L.raw? (i * n + m); let b ← R.raw? (m * c + j); pure (a * b))
    (fun k => A i k * B k j) (List.range n) (fun k hk => by
      rw [List.mem_range] at hk
      rw [hL.raw hi hk, hR.raw hk hj]; rfl) 0
  rw [add_zero, sum_range_list] at this
  rw [← this, Eig.mulCoeff, hL.cols, hR.cols]
  simp only [Option.bind_eq_bind, Option.bind_assoc]; rfl

theorem Eig.mul_spec {L R : Mat K} {result : Option (Mat K)} (hlive : Live result)
    {r n c A B} (hL : Rep L r n A) (hR : Rep R n c B) :
    ∃ m, Eig.mul L R result = some m ∧ Rep m r c (fun i j => ∑ k ∈ range n, A i k * B k j) := by
  obtain ⟨res, hres, rr, rc, rwf⟩ := Mat.pool_spec hlive hL.rpos hR.cpos
  obtain ⟨m, hm, hrep⟩ := eigenAssign_spec (fun i j _ => Eig.mulCoeff L R i j) res rwf rr rc
    (fun i j hi hj _ _ => Eig.mulCoeff_spec hL hR hi hj)
  refine ⟨m, ?_, hrep⟩
  rw [Eig.mul, if_pos (by rw [hL.cols, hR.rows])]
  simp only [hL.rows, hR.cols, hres, Option.bind_eq_bind, Option.bind_some]
  exact hm

/-! ## Transpose -/

theorem Naive.transposeWith_spec (cj : K → K) (π : Sched) {R : Mat K} {result : Option (Mat K)}
    (hlive : Live result) {r c A} (hR : Rep R r c A) :
    ∃ m, Naive.transposeWith cj π R result = some m ∧ Rep m c r (fun i j => cj (A j i)) := by
  obtain ⟨res, hres, rr, rc, rwf⟩ := Mat.pool_spec hlive hR.cpos hR.rpos
  obtain ⟨m, hm, hrep⟩ := forEach_rep (fun k => k % c) (fun k => k / c)
    (fun k => cj (A (k / c) (k % c)))
    (fun n m => do
      let j := n % c
      let i := (n - j) / c
      let v ← R.get? i j
      m.put? j i (cj v))
    (fun i j => cj (A j i))
    (π.run ℕ (List.range (r * c))) res rwf
    (fun k hk m' _ _ => by
      rw [π.mem, List.mem_range] at hk
      simp only [row_eq]
      rw [hR.elem _ _ (div_lt_of_lt_mul' hk) (mod_lt_of_lt_mul hk)]; rfl)
    (fun k hk => by rw [π.mem, List.mem_range] at hk; rw [rr]; exact mod_lt_of_lt_mul hk)
    (fun k hk => by rw [π.mem, List.mem_range] at hk; rw [rc]; exact div_lt_of_lt_mul' hk)
    (fun k _ => rfl)
    (fun i j hi hj => Or.inl ⟨j * c + i, by
      rw [π.mem, List.mem_range]; rw [rr] at hi; rw [rc] at hj; exact flat_lt hj hi,
      flat_mod (by rw [rr] at hi; exact hi), flat_div (by rw [rr] at hi; exact hi)⟩)
  refine ⟨m, ?_, by rw [rr, rc] at hrep; exact hrep⟩
  simp only [Naive.transposeWith, hR.rows, hR.cols, hres, Option.bind_eq_bind, Option.bind_some]
  exact hm

theorem Eig.transpose_spec {R : Mat K} {result : Option (Mat K)}
    (hlive : Live result) {r c A} (hR : Rep R r c A) :
    ∃ m, Eig.transpose R result = some m ∧ Rep m c r (fun i j => A j i) := by
  obtain ⟨res, hres, rr, rc, rwf⟩ := Mat.pool_spec hlive hR.cpos hR.rpos
  obtain ⟨m, hm, hrep⟩ := eigenAssign_spec (A := fun i j => A j i)
    (fun i j _ => R.raw? (j * c + i)) res rwf rr rc
    (fun i j hi hj _ _ => hR.raw hj hi)
  refine ⟨m, ?_, hrep⟩
  simp only [Eig.transpose, hR.rows, hR.cols, hres, Option.bind_eq_bind, Option.bind_some]
  exact hm

/-- The derivative-transpose kernel moves the `xr × xc` block at block position `(i,j)` to block
position `(j,i)`. -/
theorem Naive.dervTranspose_spec (π : Sched) {R : Mat K} {result : Option (Mat K)}
    (hlive : Live result) {rf cf xr xc A} (hrf : 0 < rf) (hcf : 0 < cf) (hxr : 0 < xr)
    (hxc : 0 < xc) (hR : Rep R (rf * xr) (cf * xc) A) :
    ∃ m, Naive.dervTranspose π rf cf xr xc R result = some m ∧
      Rep m (cf * xr) (rf * xc) (fun a b => A (b / xc * xr + a % xr) (a / xr * xc + b % xc)) := by
  obtain ⟨res, hres, rr, rc, rwf⟩ := Mat.pool_spec hlive (Nat.mul_pos hcf hxr) (Nat.mul_pos hrf hxc)
  obtain ⟨m, hm, hrep⟩ := forEach_rep
    (fun p : ℕ × ℕ => p.2 / xc + p.1 % cf * xr) (fun p => p.2 % xc + p.1 / cf * xc)
    (fun p => A (p.1 / cf * xr + p.2 / xc) (p.1 % cf * xc + p.2 % xc))
    (fun p m => do
      let j := p.1 % cf
      let i := (p.1 - j) / cf
      let mm := p.2 % xc
      let l := (p.2 - mm) / xc
      let v ← R.get? (l + i * xr) (mm + j * xc)
      m.put? (l + j * xr) (mm + i * xc) v)
    (fun a b => A (b / xc * xr + a % xr) (a / xr * xc + b % xc))
    (π.run (ℕ × ℕ) (pairs (cf * rf) (xc * xr))) res rwf
    (fun p hp m' _ _ => by
      rw [π.mem, mem_pairs] at hp
      have h1 : p.1 / cf < rf := Nat.div_lt_of_lt_mul hp.1
      have h2 : p.2 / xc < xr := Nat.div_lt_of_lt_mul hp.2
      have h3 : p.1 % cf < cf := Nat.mod_lt _ hcf
      have h4 : p.2 % xc < xc := Nat.mod_lt _ hxc
      simp only [row_eq]
      rw [hR.elem _ _ (by rw [Nat.add_comm]; exact flat_lt h1 h2)
        (by rw [Nat.add_comm]; exact flat_lt h3 h4)]
      simp only [Nat.add_comm]; rfl)
    (fun p hp => by
      rw [π.mem, mem_pairs] at hp
      have h2 : p.2 / xc < xr := Nat.div_lt_of_lt_mul hp.2
      rw [rr, Nat.add_comm]; exact flat_lt (Nat.mod_lt _ hcf) h2)
    (fun p hp => by
      rw [π.mem, mem_pairs] at hp
      have h1 : p.1 / cf < rf := Nat.div_lt_of_lt_mul hp.1
      rw [rc, Nat.add_comm]; exact flat_lt h1 (Nat.mod_lt _ hxc))
    (fun p hp => by
      rw [π.mem, mem_pairs] at hp
      have h2 : p.2 / xc < xr := Nat.div_lt_of_lt_mul hp.2
      have h4 : p.2 % xc < xc := Nat.mod_lt _ hxc
      rw [Nat.add_comm (p.2 / xc), Nat.add_comm (p.2 % xc), flat_div h4, flat_mod h2, flat_div h2,
        flat_mod h4])
    (fun a b ha hb => Or.inl ⟨(b / xc * cf + a / xr, a % xr * xc + b % xc), by
      rw [rr] at ha; rw [rc] at hb
      rw [π.mem, mem_pairs]
      constructor
      · rw [Nat.mul_comm cf]; exact flat_lt (div_lt_of_lt_mul' hb) (div_lt_of_lt_mul' ha)
      · rw [Nat.mul_comm xc]; exact flat_lt (Nat.mod_lt _ hxr) (Nat.mod_lt _ hxc), by
      rw [rr] at ha
      simp only
      rw [flat_div (Nat.mod_lt _ hxc), flat_mod (div_lt_of_lt_mul' ha), Nat.add_comm, div_mul_mod], by
      rw [rr] at ha
      simp only
      rw [flat_mod (Nat.mod_lt _ hxc), flat_div (div_lt_of_lt_mul' ha), Nat.add_comm, div_mul_mod]⟩)
  refine ⟨m, ?_, by rw [rr, rc] at hrep; exact hrep⟩
  simp only [Naive.dervTranspose, hres, Option.bind_eq_bind, Option.bind_some]
  exact hm

/-! ## Kronecker product -/

theorem Eig.kron_spec {L R : Mat K} {result : Option (Mat K)} (hlive : Live result)
    {lr lc rr rc A B} (hL : Rep L lr lc A) (hR : Rep R rr rc B) :
    ∃ m, Eig.kron L R result = some m ∧
      Rep m (lr * rr) (lc * rc) (fun a b => A (a / rr) (b / rc) * B (a % rr) (b % rc)) := by
  obtain ⟨res, hres, h1, h2, rwf⟩ := Mat.pool_spec hlive (Nat.mul_pos hL.rpos hR.rpos)
    (Nat.mul_pos hL.cpos hR.cpos)
  obtain ⟨m, hm, hrep⟩ := eigenAssign_spec
    (A := fun a b => A (a / rr) (b / rc) * B (a % rr) (b % rc))
    (fun a b _ => do
      let x ← L.raw? (a / rr * lc + b / rc)
      let y ← R.raw? (a % rr * rc + b % rc)
      pure (x * y)) res rwf h1 h2
    (fun a b ha hb _ _ => by
      rw [hL.raw (div_lt_of_lt_mul' ha) (div_lt_of_lt_mul' hb),
        hR.raw (Nat.mod_lt _ hR.rpos) (Nat.mod_lt _ hR.cpos)]; rfl)
  refine ⟨m, ?_, hrep⟩
  simp only [Eig.kron, hL.rows, hL.cols, hR.rows, hR.cols, hres, Option.bind_eq_bind,
    Option.bind_some]
  exact hm

/-- The naive Kronecker kernel: blocks with a nonzero left factor are written; cells of the other
blocks keep what the buffer held. -/
theorem Naive.kron_spec (π : Sched) {L R : Mat K} {result : Option (Mat K)} {res : Mat K}
    {lr lc rr rc A B} (hL : Rep L lr lc A) (hR : Rep R rr rc B)
    (hres : Mat.pool result (lr * rr) (lc * rc) = some res) {O : ℕ → ℕ → K}
    (hO : Rep res (lr * rr) (lc * rc) O) :
    ∃ m, Naive.kron π L R result = some m ∧
      Rep m (lr * rr) (lc * rc) (fun a b =>
        if A (a / rr) (b / rc) = 0 then O a b else A (a / rr) (b / rc) * B (a % rr) (b % rc)) := by
  have hrp := hR.rpos; have hcp := hR.cpos
  -- the iterations that write
  have key : ∀ (idx : List (ℕ × ℕ)), (∀ p ∈ idx, p.1 < lr * lc ∧ p.2 < rr * rc) → ∀ m : Mat K,
      m.rows = lr * rr → m.cols = lc * rc → m.WF →
      forEach idx (fun p m => do
        let j := p.1 % lc
        let i := (p.1 - j) / lc
        let val ← L.get? i j
        if val ≠ 0 then
          let mm := p.2 % rc
          let l := (p.2 - mm) / rc
          let b ← R.get? l mm
          m.put? (i * rr + l) (j * rc + mm) (b * val)
        else pure m) m =
      forEach (idx.filter fun p => A (p.1 / lc) (p.1 % lc) ≠ 0) (fun p m =>
        m.put? (p.1 / lc * rr + p.2 / rc) (p.1 % lc * rc + p.2 % rc)
          (A (p.1 / lc) (p.1 % lc) * B (p.2 / rc) (p.2 % rc))) m := by
    intro idx
    induction idx with
    | nil => intros; rfl
    | cons p l ih =>
      intro hb m h1 h2 h3
      have hp := hb p (by simp)
      have hget : L.get? (p.1 / lc) (p.1 % lc) = some (A (p.1 / lc) (p.1 % lc)) :=
        hL.elem _ _ (div_lt_of_lt_mul' hp.1) (mod_lt_of_lt_mul hp.1)
      have hget2 : R.get? (p.2 / rc) (p.2 % rc) = some (B (p.2 / rc) (p.2 % rc)) :=
        hR.elem _ _ (div_lt_of_lt_mul' hp.2) (mod_lt_of_lt_mul hp.2)
      rw [forEach, List.foldlM_cons]
      simp only [row_eq, hget, hget2, Option.bind_eq_bind, Option.bind_some]
      by_cases hz : A (p.1 / lc) (p.1 % lc) = 0
      · rw [if_neg (by simpa using hz), List.filter_cons_of_neg (by simpa using hz)]
        rw [show (pure m : Option (Mat K)) = some m from rfl, Option.bind_some]
        rw [← ih (fun q hq => hb q (List.mem_cons_of_mem _ hq)) m h1 h2 h3, forEach]
        simp only [row_eq, Option.bind_eq_bind]
      · rw [if_pos hz, List.filter_cons_of_pos (by simpa using hz)]
        have hi : p.1 / lc * rr + p.2 / rc < m.rows := by
          rw [h1]; exact flat_lt (div_lt_of_lt_mul' hp.1) (div_lt_of_lt_mul' hp.2)
        have hj : p.1 % lc * rc + p.2 % rc < m.cols := by
          rw [h2]; exact flat_lt (mod_lt_of_lt_mul hp.1) (mod_lt_of_lt_mul hp.2)
        obtain ⟨m1, e1, e2, e3, e4, _⟩ := Mat.put?_spec h3 hi hj
          (A (p.1 / lc) (p.1 % lc) * B (p.2 / rc) (p.2 % rc))
        rw [forEach, List.foldlM_cons, e1, mul_comm (B _ _), e1]
        simp only [Option.bind_some, Option.bind_eq_bind]
        have hih := ih (fun q hq => hb q (List.mem_cons_of_mem _ hq)) m1 (e2.trans h1)
          (e3.trans h2) e4
        simp only [row_eq, Option.bind_eq_bind, forEach] at hih
        exact hih
  have hmem : ∀ p ∈ π.run (ℕ × ℕ) (pairs (lr * lc) (rr * rc)), p.1 < lr * lc ∧ p.2 < rr * rc :=
    fun p hp => by rw [π.mem, mem_pairs] at hp; exact hp
  obtain ⟨m, hm, hrep⟩ := forEach_rep
    (fun p : ℕ × ℕ => p.1 / lc * rr + p.2 / rc) (fun p => p.1 % lc * rc + p.2 % rc)
    (fun p => A (p.1 / lc) (p.1 % lc) * B (p.2 / rc) (p.2 % rc))
    (fun p m => m.put? (p.1 / lc * rr + p.2 / rc) (p.1 % lc * rc + p.2 % rc)
          (A (p.1 / lc) (p.1 % lc) * B (p.2 / rc) (p.2 % rc)))
    (fun a b =>
        if A (a / rr) (b / rc) = 0 then O a b else A (a / rr) (b / rc) * B (a % rr) (b % rc))
    ((π.run (ℕ × ℕ) (pairs (lr * lc) (rr * rc))).filter fun p => A (p.1 / lc) (p.1 % lc) ≠ 0)
    res hO.wf
    (fun _ _ _ _ _ => rfl)
    (fun p hp => by
      have := hmem p (List.mem_of_mem_filter hp)
      rw [hO.rows]; exact flat_lt (div_lt_of_lt_mul' this.1) (div_lt_of_lt_mul' this.2))
    (fun p hp => by
      have := hmem p (List.mem_of_mem_filter hp)
      rw [hO.cols]; exact flat_lt (mod_lt_of_lt_mul this.1) (mod_lt_of_lt_mul this.2))
    (fun p hp => by
      have h := hmem p (List.mem_of_mem_filter hp)
      have hz := (List.mem_filter.1 hp).2
      simp only [ne_eq, decide_not, Bool.not_eq_eq_eq_not, Bool.not_true,
        decide_eq_false_iff_not] at hz
      simp only [flat_div (div_lt_of_lt_mul' h.2), flat_mod (div_lt_of_lt_mul' h.2),
        flat_div (mod_lt_of_lt_mul h.2), flat_mod (mod_lt_of_lt_mul h.2), if_neg hz])
    (fun a b ha hb => by
      rw [hO.rows] at ha; rw [hO.cols] at hb
      by_cases hz : A (a / rr) (b / rc) = 0
      · right; rw [if_pos hz]; exact hO.elem a b ha hb
      · left
        refine ⟨(a / rr * lc + b / rc, a % rr * rc + b % rc), ?_, ?_, ?_⟩
        · rw [List.mem_filter, π.mem, mem_pairs]
          simp only [flat_div (div_lt_of_lt_mul' hb), flat_mod (div_lt_of_lt_mul' hb)]
          refine ⟨⟨flat_lt (div_lt_of_lt_mul' ha) (div_lt_of_lt_mul' hb),
            flat_lt (Nat.mod_lt _ hrp) (Nat.mod_lt _ hcp)⟩, by simpa using hz⟩
        · simp only [flat_div (div_lt_of_lt_mul' hb), flat_div (Nat.mod_lt _ hcp), div_mul_mod]
        · simp only [flat_mod (div_lt_of_lt_mul' hb), flat_mod (Nat.mod_lt _ hcp), div_mul_mod])
  refine ⟨m, ?_, by rw [hO.rows, hO.cols] at hrep; exact hrep⟩
  simp only [Naive.kron, hL.rows, hL.cols, hR.rows, hR.cols, hres]
  rw [Option.bind_eq_bind, Option.bind_some]
  rw [key _ hmem res hO.rows hO.cols hO.wf]
  exact hm

/-! ## Trace -/

theorem Naive.trace_spec {R : Mat K} {result : Option (Mat K)} (hlive : Live result) {n A}
    (hR : Rep R n n A) :
    ∃ m, Naive.trace R result = some m ∧ Rep m 1 1 (fun _ _ => ∑ k ∈ range n, A k k) := by
  obtain ⟨res, hres, rr, rc, rwf⟩ := Mat.pool_spec hlive one_pos one_pos
  have hsum := foldlM_sum (fun k => R.get? k k) (fun k => A k k) (List.range n)
    (fun k hk => by rw [List.mem_range] at hk; exact hR.elem k k hk hk) 0
  rw [zero_add, sum_range_list] at hsum
  have hlen : res.data.length = 1 := by rw [rwf.len, rr, rc, Nat.one_mul]
  refine ⟨{ res with data := res.data.set 0 (∑ k ∈ range n, A k k) }, ?_, ?_⟩
  · rw [Naive.trace, if_pos (by rw [hR.rows, hR.cols]), hres]
    simp only [Option.bind_eq_bind, Option.bind_some, hR.rows]
    simp only [Option.bind_eq_bind] at hsum
    rw [hsum]
    simp only [Option.bind_some, rr, rc, Mat.rawPut?, hlen]
    simp
  · refine Rep.of_raw ⟨rwf.rpos, rwf.cpos, by simpa using rwf.len⟩ rr rc ?_
    intro i j hi hj
    obtain rfl : i = 0 := by omega
    obtain rfl : j = 0 := by omega
    simp only [Nat.zero_mul, Nat.add_zero]; rw [List.getElem?_set]; simp [hlen]

theorem Eig.trace_spec {R : Mat K} {result : Option (Mat K)} (hlive : Live result) {n A}
    (hR : Rep R n n A) :
    ∃ m, Eig.trace R result = some m ∧ Rep m 1 1 (fun _ _ => ∑ k ∈ range n, A k k) := by
  obtain ⟨res, hres, rr, rc, rwf⟩ := Mat.pool_spec hlive one_pos one_pos
  have hsum := foldrM_sum (fun k => R.raw? (k * n + k)) (fun k => A k k) (List.range n)
    (fun k hk => by rw [List.mem_range] at hk; exact hR.raw hk hk) 0
  rw [add_zero, sum_range_list] at hsum
  obtain ⟨m1, e1, e2, e3, e4, e5⟩ := Mat.put?_spec rwf (i := 0) (j := 0) rwf.rpos rwf.cpos
    (∑ k ∈ range n, A k k)
  refine ⟨m1, ?_, e4.rpos.trans_eq (e2.trans rr), e4.cpos.trans_eq (e3.trans rc), e2.trans rr,
    e3.trans rc, by rw [e4.len, e2, e3, rr, rc], ?_⟩
  · rw [Eig.trace, if_pos (by rw [hR.rows, hR.cols]), hres]
    simp only [Option.bind_eq_bind, Option.bind_some, hR.rows, hR.cols]
    simp only [Option.bind_eq_bind] at hsum
    rw [hsum]
    exact e1
  · intro i j hi hj
    obtain rfl : i = 0 := by omega
    obtain rfl : j = 0 := by omega
    rw [e5, if_pos ⟨rfl, rfl⟩]

end CoolDiff
