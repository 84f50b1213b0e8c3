import Verif.Lemmas.QuadProject
import Verif.Lemmas.Series
import Verif.Props.Position
import Verif.Props.Inner

/-! # Products of series -/

namespace Hermipy
open Spec
variable {F : Type} [DecidableEq F]

/-- The terms of the factor of a product. -/
def productTerms (f1 f2 : SFn F) (c : Product F) : Multiset (Product F) :=
  (divTerms f1 c).bind fun p => (divTerms f2 c).map fun p' => p + p'

theorem common_eq {d1 d2 D K : List ℕ} (hi1 : d1.Pairwise (· < ·)) (hsf : SharedFree d1 d2 D K) :
    (d1.filter fun d => d ∈ d2).insertionSort (· ≤ ·) = K := by
  refine List.Perm.eq_of_pairwise (le := (· ≤ ·)) (fun a b _ _ h h' => le_antisymm h h') (List.pairwise_insertionSort _ _)
    (hsf.incK.imp le_of_lt) ?_
  refine (List.perm_insertionSort _ _).trans ?_
  refine (List.perm_ext_iff_of_nodup ((hi1.imp (ne_of_lt ·)).filter _) (hsf.incK.imp (ne_of_lt ·))).2 fun d => ?_
  rw [hsf.memK]
  simp

theorem series_tensorize2_core {s : IndexSet} {degree : ℕ} {s1 s2 : HSeries (SFn F)} {D K : List ℕ} (hp1 : PosOk s1.position)
    (hp2 : PosOk s2.position) (hg1 : s1.position.is_diag) (hg2 : s2.position.is_diag) (hi1 : s1.position.dirs.Pairwise (· < ·))
    (hi2 : s2.position.dirs.Pairwise (· < ·)) (hsf : SharedFree s1.position.dirs s2.position.dirs D K)
    (hag : ∀ d ∈ K, Agree s1.position s2.position d) (hs1 : s1.index_set = s) (hs2 : s2.index_set = s) (hdeg : s1.degree = s2.degree)
    (hu1 : Usable s s1.position.dirs.length degree) (hz2 : Sized s s2.position.dirs.length degree)
    (hzD : D ≠ [] → Sized s D.length degree)
    {L1 L2 LD LK : List (List ℕ)} (hL1 : IterOk s s1.position.dirs.length degree L1) (hL2 : IterOk s s2.position.dirs.length degree L2)
    (hLD : Listing s degree D LD) (hLK : Listing s degree K LK) (hl1 : s1.coeffs.length = L1.length)
    (hl2 : s2.coeffs.length = L2.length) {c : List ℕ × Product F} (hf1 : fn_project s1.factor.toFn K = .ok c)
    (hf2 : fn_project s2.factor.toFn K = .ok c)
    (hvars : ∀ p ∈ productTerms s1.factor s2.factor c.2, ∀ a ∈ p, ∀ x ∈ a.1, x ∈ D) :
    ∃ pos, series_tensorize2 s1 s2 = mkSeries (LD.map (fun m => (LK.map fun k => coef L1 s1.coeffs (s1.position.dirs.map (joint D m K k)) *
        coef L2 s2.coeffs (s2.position.dirs.map (joint D m K k))).sum)) pos ⟨D, productTerms s1.factor s2.factor c.2⟩ s ∧
      PosOk pos ∧ Diagonal pos ∧ pos.dirs = D ∧
      (∀ d x, Has pos d x ↔ (Has s1.position d x ∧ d ∉ s2.position.dirs) ∨ (Has s2.position d x ∧ d ∉ s1.position.dirs)) := by
  have hd1 : s1.position.dim ≠ 0 := by rw [← hp1.dirs]; have := hu1.dim_pos; omega
  have hd2 : s2.position.dim ≠ 0 := by rw [← hp2.dirs]; have := hz2.dim_pos; omega
  have hcommon := common_eq hi1 hsf
  obtain ⟨v, hv, hvl, hvv⟩ := inner_ok hu1 hz2 hi1 hi2 hsf hzD hL1 hL2 hLD hLK hl1 hl2
  have hvv : v = LD.map (fun m => (LK.map fun k => coef L1 s1.coeffs (s1.position.dirs.map (joint D m K k)) *
        coef L2 s2.coeffs (s2.position.dirs.map (joint D m K k))).sum) := by
    apply List.ext_getElem
    · simp [hvl]
    · intro i h1 h2
      have h3 := hvv i _ (List.getElem?_eq_getElem (show i < LD.length by omega))
      rw [List.getElem?_eq_getElem h1] at h3
      rw [List.getElem_map]
      exact Option.some.inj h3
  obtain ⟨pos, ep, pok, pdirs, phas, psort⟩ := Props.C52_tensorize_partial [s1.position, s2.position] (by simp)
    (by simp [hp1, hp2]) (by simp [hg1, hg2]) (by
      intro d
      simp only [holders]
      exact (List.length_filter_le _ _).trans (by simp)) (by
      intro d p q hpq
      simp only [holders, List.filter_cons, List.filter_nil] at hpq
      by_cases a1 : d ∈ s1.position.dirs <;> by_cases a2 : d ∈ s2.position.dirs <;> simp [a1, a2] at hpq
      rw [← hpq.1, ← hpq.2]
      exact hag d ((hsf.memK d).2 ⟨a1, a2⟩))
  obtain ⟨psorted, pdiag⟩ := psort (by simp)
  have phold : ∀ d x, Has pos d x ↔ (Has s1.position d x ∧ d ∉ s2.position.dirs) ∨ (Has s2.position d x ∧ d ∉ s1.position.dirs) := by
    intro d x
    rw [phas]
    simp only [holders, List.filter_cons, List.filter_nil]
    have b1 : Has s1.position d x → d ∈ s1.position.dirs := fun h => h.mem
    have b2 : Has s2.position d x → d ∈ s2.position.dirs := fun h => h.mem
    by_cases a1 : d ∈ s1.position.dirs <;> by_cases a2 : d ∈ s2.position.dirs <;> simp [a1, a2] <;> tauto
  have pD : pos.dirs = D := by
    refine List.Perm.eq_of_pairwise (le := (· < ·)) (fun a b _ _ h h' => absurd h (lt_asymm h')) psorted hsf.incD ?_
    refine (List.perm_ext_iff_of_nodup pok.nodup (hsf.incD.imp (ne_of_lt ·))).2 fun d => ?_
    rw [pdirs, hsf.memD]
    simp only [holders, List.filter_cons, List.filter_nil]
    by_cases a1 : d ∈ s1.position.dirs <;> by_cases a2 : d ∈ s2.position.dirs <;> simp [a1, a2]
  refine ⟨pos, ?_, pok, pdiag, pD, phold⟩
  rw [series_tensorize2, if_neg hd1, if_neg hd2]
  simp only [hcommon]
  rw [hf1, Out.ok_bind, hf2, Out.ok_bind, if_neg (by simp), if_neg (by simp [hdeg]), if_neg (by simp [hs1, hs2]), hs1, hv, Out.ok_bind, ep,
    Out.ok_bind]
  rw [if_neg]
  · rw [hvv, pD]
    rfl
  · rw [not_or, not_not, isSorted]
    refine ⟨psorted.imp le_of_lt, ?_⟩
    rintro ⟨p, hp, x, ⟨a, ha, hx⟩, hxd⟩
    exact hxd (by rw [pD]; exact hvars p hp a ha x hx)

theorem series_tensorize2_ok {s : IndexSet} {degree : ℕ} {s1 s2 : HSeries (SFn F)} {D K : List ℕ} (hp1 : PosOk s1.position)
    (hp2 : PosOk s2.position) (hg1 : s1.position.is_diag) (hg2 : s2.position.is_diag) (hi1 : s1.position.dirs.Pairwise (· < ·))
    (hi2 : s2.position.dirs.Pairwise (· < ·)) (hsf : SharedFree s1.position.dirs s2.position.dirs D K) (hD : D ≠ [])
    (hag : ∀ d ∈ K, Agree s1.position s2.position d) (hs1 : s1.index_set = s) (hs2 : s2.index_set = s) (hdeg : s1.degree = s2.degree)
    (hu1 : Usable s s1.position.dirs.length degree) (hz2 : Sized s s2.position.dirs.length degree) (huD : Usable s D.length degree)
    {L1 L2 LD LK : List (List ℕ)} (hL1 : IterOk s s1.position.dirs.length degree L1) (hL2 : IterOk s s2.position.dirs.length degree L2)
    (hLD : IterOk s D.length degree LD) (hLK : Listing s degree K LK) (hl1 : s1.coeffs.length = L1.length)
    (hl2 : s2.coeffs.length = L2.length) {c : List ℕ × Product F} (hf1 : fn_project s1.factor.toFn K = .ok c)
    (hf2 : fn_project s2.factor.toFn K = .ok c)
    (hvars : ∀ p ∈ productTerms s1.factor s2.factor c.2, ∀ a ∈ p, ∀ x ∈ a.1, x ∈ D) :
    ∃ r, series_tensorize2 s1 s2 = .ok r ∧ SeriesOk r ∧ Diagonal r.position ∧ r.position.dirs = D ∧
      (∀ d x, Has r.position d x ↔ (Has s1.position d x ∧ d ∉ s2.position.dirs) ∨ (Has s2.position d x ∧ d ∉ s1.position.dirs)) ∧
      r.factor = ⟨D, productTerms s1.factor s2.factor c.2⟩ ∧ r.index_set = s ∧ SameSets s r.degree degree ∧
      r.coeffs = LD.map (fun m => (LK.map fun k => coef L1 s1.coeffs (s1.position.dirs.map (joint D m K k)) *
        coef L2 s2.coeffs (s2.position.dirs.map (joint D m K k))).sum) := by
  obtain ⟨pos, e, pok, pdiag, pD, phas⟩ := series_tensorize2_core hp1 hp2 hg1 hg2 hi1 hi2 hsf hag hs1 hs2 hdeg hu1 hz2 (fun _ => huD.toSized)
    hL1 hL2 (Or.inr ⟨hD, hLD.list⟩) hLK hl1 hl2 hf1 hf2 hvars
  have pdim : pos.dim = D.length := by rw [← pok.dirs, pD]
  rw [e]
  obtain ⟨r, er, rok, r1, r2, r3, r4, r5, r6⟩ := mkSeries_ok (coeffs := LD.map (fun m => (LK.map fun k =>
      coef L1 s1.coeffs (s1.position.dirs.map (joint D m K k)) * coef L2 s2.coeffs (s2.position.dirs.map (joint D m K k))).sum))
    (factor := (⟨D, productTerms s1.factor s2.factor c.2⟩ : SFn F)) pok
    (by rw [pD]; exact hD) (by rw [pdim]; exact huD) (by rw [pdim]; exact hLD) (by simp)
  exact ⟨r, er, rok, by rw [r2]; exact pdiag, by rw [r2, pD], by rw [r2]; exact phas, r3, r4, r6, r1⟩

end Hermipy
