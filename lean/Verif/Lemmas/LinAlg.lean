import Verif.Spec.LinAlg
import Mathlib.Analysis.Matrix.PosDef
import Mathlib.Algebra.BigOperators.Fin
import Mathlib.LinearAlgebra.Matrix.NonsingularInverse
import Mathlib.Tactic.Positivity

/-!
# Lemmas on decompositions: there are correct routines; positive definiteness of damped factors
-/

namespace Curvlinops

/-- The entries as a matrix. -/
def Factor.toMat (M : Factor ℝ) : Matrix (Fin M.dim) (Fin M.dim) ℝ := fun i j => M.mat i j

/-- Entries of a matrix, zero outside. -/
noncomputable def entries {n : Nat} (A : Matrix (Fin n) (Fin n) ℝ) (i j : Nat) : ℝ :=
  if h : i < n ∧ j < n then A ⟨i, h.1⟩ ⟨j, h.2⟩ else 0

theorem entries_fin {n : Nat} (A : Matrix (Fin n) (Fin n) ℝ) (i j : Fin n) : entries A i j = A i j := by
  simp [entries]

theorem Factor.Sym.isHermitian {M : Factor ℝ} (h : M.Sym) : M.toMat.IsHermitian :=
  Matrix.IsHermitian.ext fun i j => h j j.2 i i.2

theorem Factor.PosDef.posDef {M : Factor ℝ} (h : M.PosDef) : M.toMat.PosDef := by
  refine Matrix.PosDef.of_dotProduct_mulVec_pos h.1.isHermitian fun x hx => ?_
  obtain ⟨i, hi⟩ := Function.ne_iff.mp hx
  have := h.2 (fun i => if h : i < M.dim then x ⟨i, h⟩ else 0) ⟨i, i.2, by simpa using hi⟩
  rw [Finset.sum_range] at this
  refine this.trans_eq ?_
  simp only [dotProduct, Matrix.mulVec, Finset.sum_range, Finset.mul_sum, Factor.toMat]
  refine Finset.sum_congr rfl fun i _ => Finset.sum_congr rfl fun j _ => ?_
  simp [mul_assoc]

/-- There are correct routines. -/
theorem linAlg_correct_exists : ∃ la : LinAlg, la.Correct := by
  classical
  have hinv : ∀ M : Factor ℝ, M.PosDef → ∃ N, M.IsInv N := by
    intro M h
    have hu := h.posDef.isUnit
    rw [Matrix.isUnit_iff_isUnit_det] at hu
    refine ⟨⟨M.dim, entries M.toMat⁻¹⟩, rfl, fun i hi j hj => ?_⟩
    have h1 := congrFun (congrFun (Matrix.mul_nonsing_inv M.toMat hu) ⟨i, hi⟩) ⟨j, hj⟩
    have h2 := congrFun (congrFun (Matrix.nonsing_inv_mul M.toMat hu) ⟨i, hi⟩) ⟨j, hj⟩
    rw [Matrix.mul_apply, Matrix.one_apply] at h1 h2
    simp only [Fin.mk.injEq] at h1 h2
    refine ⟨?_, ?_⟩
    · rw [← h1, Finset.sum_range]
      exact Finset.sum_congr rfl fun k _ => by simp [entries, hj, Factor.toMat]
    · rw [← h2, Finset.sum_range]
      exact Finset.sum_congr rfl fun k _ => by simp [entries, hi, Factor.toMat]
  have heig : ∀ M : Factor ℝ, M.Sym → ∃ e, M.IsEigen e ∧ (M.PosDef → ∀ p < M.dim, 0 ≤ e.vals p) := by
    intro M h
    let hh := h.isHermitian
    let U : Matrix (Fin M.dim) (Fin M.dim) ℝ := hh.eigenvectorUnitary
    have hU : star U * U = 1 := Unitary.coe_star_mul_self hh.eigenvectorUnitary
    have hM : M.toMat = U * Matrix.diagonal hh.eigenvalues * star U := by
      have := hh.spectral_theorem
      rw [Unitary.conjStarAlgAut_apply] at this
      exact this
    refine ⟨⟨M.dim, entries U, fun p => if h : p < M.dim then hh.eigenvalues ⟨p, h⟩ else 0⟩, ⟨rfl, ?_, ?_⟩, ?_⟩
    · intro p hp q hq
      have := congrFun (congrFun hU ⟨p, hp⟩) ⟨q, hq⟩
      rw [Matrix.mul_apply, Matrix.one_apply] at this
      simp only [Fin.mk.injEq] at this
      rw [← this, Finset.sum_range]
      refine Finset.sum_congr rfl fun k _ => by simp [entries, hp, hq, Matrix.star_apply]
    · intro i hi j hj
      have := congrFun (congrFun hM ⟨i, hi⟩) ⟨j, hj⟩
      rw [show M.mat i j = M.toMat ⟨i, hi⟩ ⟨j, hj⟩ from rfl, this, Finset.sum_range, Matrix.mul_apply]
      refine Finset.sum_congr rfl fun k _ => ?_
      simp [entries, hi, hj, Matrix.mul_diagonal, Matrix.star_apply]
    · intro hp p hpd
      simp only [dif_pos hpd]
      exact hp.posDef.posSemidef.eigenvalues_nonneg ⟨p, hpd⟩
  have hroot : ∀ M : Factor ℝ, M.PosDef → ∃ L, M.IsRoot L := by
    intro M h
    obtain ⟨e, he, hnn⟩ := heig M h.1
    refine ⟨⟨M.dim, fun i k => e.vecs i k * Real.sqrt (e.vals k)⟩, rfl, fun i hi j hj => ?_⟩
    rw [← he.decomp i hi j hj]
    refine Finset.sum_congr rfl fun k hk => ?_
    have := Real.mul_self_sqrt (hnn h k (Finset.mem_range.mp hk))
    calc _ = e.vecs i k * (Real.sqrt (e.vals k) * Real.sqrt (e.vals k)) * e.vecs j k := by ring
      _ = _ := by rw [this]
  have hne : Nonempty (Factor ℝ) := ⟨⟨0, fun _ _ => 0⟩⟩
  have heq : ∀ M M' L : Factor ℝ, M.IsRoot L → M'.IsRoot L → M.dim = M'.dim ∧ ∀ i < M.dim, ∀ j < M.dim, M.mat i j = M'.mat i j := by
    intro M M' L h h'
    have hd : M.dim = M'.dim := h.1.symm.trans h'.1
    refine ⟨hd, fun i hi j hj => ?_⟩
    rw [← h.2 i hi j hj, ← h'.2 i (hd ▸ hi) j (hd ▸ hj), hd]
  refine ⟨⟨fun _ M => if h : ∃ L, M.IsRoot L then .ok h.choose else .error .runtimeError, fun _ => .error .runtimeError,
    fun L => if h : ∃ N, ∃ M : Factor ℝ, M.PosDef ∧ M.IsRoot L ∧ M.IsInv N then h.choose else ⟨0, fun _ _ => 0⟩,
    fun M => if h : ∃ e, M.IsEigen e then .ok h.choose else .error .runtimeError⟩, ?_, ?_, ?_⟩
  · intro dt M h
    have hr := hroot M h
    exact ⟨hr.choose, dif_pos hr, hr.choose_spec⟩
  · intro M L hM hL
    obtain ⟨N, hN⟩ := hinv M hM
    have hex : ∃ N, ∃ M : Factor ℝ, M.PosDef ∧ M.IsRoot L ∧ M.IsInv N := ⟨N, M, hM, hL, hN⟩
    simp only [dif_pos hex]
    obtain ⟨M', hM', hL', hd', hI'⟩ := hex.choose_spec
    obtain ⟨hd, he⟩ := heq M M' L hL hL'
    refine ⟨hd'.trans hd.symm, fun i hi j hj => ?_⟩
    have := hI' i (hd ▸ hi) j (hd ▸ hj)
    rw [← hd] at this
    refine ⟨?_, ?_⟩
    · rw [← this.1]
      exact Finset.sum_congr rfl fun k hk => by rw [he i hi k (Finset.mem_range.mp hk)]
    · rw [← this.2]
      exact Finset.sum_congr rfl fun k hk => by rw [he k (Finset.mem_range.mp hk) j hj]
  · intro M h
    obtain ⟨e, he, _⟩ := heig M h
    have hr : ∃ e, M.IsEigen e := ⟨e, he⟩
    exact ⟨hr.choose, dif_pos hr, hr.choose_spec⟩

/-- Adding a positive number to the diagonal of a positive semi-definite factor gives a positive definite factor. -/
theorem Factor.PosSemidef.addDiag {M : Factor ℝ} (h : M.PosSemidef) {d : ℝ} (hd : 0 < d) : (M.addDiag d).PosDef := by
  refine ⟨fun i hi j hj => ?_, fun x ⟨i, hi, hx⟩ => ?_⟩
  · simp only [Factor.addDiag]
    rw [h.1 i hi j hj]
    simp only [eq_comm]
  · have h1 := h.2 x
    have : ∑ i ∈ Finset.range M.dim, ∑ j ∈ Finset.range M.dim, x i * (M.addDiag d).mat i j * x j =
        ∑ i ∈ Finset.range M.dim, ∑ j ∈ Finset.range M.dim, x i * M.mat i j * x j +
          d * ∑ i ∈ Finset.range M.dim, x i * x i := by
      rw [Finset.mul_sum, ← Finset.sum_add_distrib]
      refine Finset.sum_congr rfl fun i hi => ?_
      have : ∀ j, x i * (M.addDiag d).mat i j * x j = x i * M.mat i j * x j + if i = j then d * (x i * x i) else 0 := by
        intro j
        simp only [Factor.addDiag]
        split_ifs with hij
        · subst hij; ring
        · ring
      rw [Finset.sum_congr rfl fun j _ => this j, Finset.sum_add_distrib, Finset.sum_ite_eq, if_pos hi]
    rw [show (M.addDiag d).dim = M.dim from rfl, this]
    have h2 : 0 < ∑ i ∈ Finset.range M.dim, x i * x i :=
      Finset.sum_pos' (fun i _ => mul_self_nonneg _) ⟨i, Finset.mem_range.mpr hi, mul_self_pos.mpr hx⟩
    positivity

/-- The eigenvectors are orthonormal as rows, too. -/
theorem Factor.IsEigen.rows {M : Factor ℝ} {e : Eigen} (h : M.IsEigen e) (i : Nat) (hi : i < M.dim) (j : Nat)
    (hj : j < M.dim) : ∑ p ∈ Finset.range M.dim, e.vecs i p * e.vecs j p = if i = j then 1 else 0 := by
  let Q : Matrix (Fin M.dim) (Fin M.dim) ℝ := fun i p => e.vecs i p
  have hQ : Q.transpose * Q = 1 := by
    ext p q
    rw [Matrix.mul_apply, Matrix.one_apply]
    have := h.orthonormal p p.2 q q.2
    rw [Finset.sum_range] at this
    simp only [Fin.ext_iff]
    exact this
  have hQ' := mul_eq_one_comm.mp hQ
  have := congrFun (congrFun hQ' ⟨i, hi⟩) ⟨j, hj⟩
  rw [Matrix.mul_apply, Matrix.one_apply] at this
  simp only [Fin.mk.injEq] at this
  rw [← this, Finset.sum_range]
  rfl

end Curvlinops
