import Verif.Lemmas.QuadObject

/-! # C63: the constructor of positions -/

namespace Hermipy.Props
open Hermipy Spec

/-- The arguments that are given are consistent with the dimension `n`. -/
structure Consistent (n : ℕ) (dim : Option ℕ) (mean : Option (List ℝ)) (cov : Option (List (List ℝ))) (dirs : Option (List ℕ))
    (types : Option (List String)) : Prop where
  dim : ∀ m, dim = some m → m = n
  mean : ∀ m, mean = some m → m.length = n
  cov : ∀ c, cov = some c → c.length = n ∧ ∀ r ∈ c, r.length = n
  dirs : ∀ d, dirs = some d → d.length = n
  types : ∀ t, types = some t → t.length = n

/-- The position has the data that is given, and mean zero, unit covariance, the first directions and Hermite types where it is not. -/
structure Filled (p : Position) (mean : Option (List ℝ)) (cov : Option (List (List ℝ))) (dirs : Option (List ℕ))
    (types : Option (List String)) : Prop where
  meanGiven : ∀ m, mean = some m → p.mean = m
  zero : mean = none → ∀ i < p.dim, p.mean[i]? = some 0
  meanLength : p.mean.length = p.dim
  covGiven : ∀ c, cov = some c → p.cov = c
  eye : cov = none → ∀ i < p.dim, ∃ r, p.cov[i]? = some r ∧ r.length = p.dim ∧ ∀ j < p.dim, r[j]? = some (if i = j then 1 else 0)
  covLength : p.cov.length = p.dim
  dirsGiven : ∀ d, dirs = some d → p.dirs = d
  first : dirs = none → ∀ i < p.dim, p.dirs[i]? = some i
  dirsLength : p.dirs.length = p.dim
  typesGiven : ∀ t, types = some t → p.types = t
  hermite : types = none → ∀ i < p.dim, p.types[i]? = some "hermite"
  typesLength : p.types.length = p.dim

variable {dim : Option ℕ} {mean : Option (List ℝ)} {cov : Option (List (List ℝ))} {dirs : Option (List ℕ)} {types : Option (List String)}

/-- C63. If the directions or the dimension are given, and all that is given is consistent with the dimension `n`, then the constructor
returns the position of dimension `n` with the given data, and mean zero, unit covariance, the first directions and Hermite types where
nothing is given. -/
theorem C63_init_partial {n : ℕ} (h : Consistent n dim mean cov dirs types) (hd : dirs ≠ none ∨ dim ≠ none) :
    ∃ p, mkPosition dim mean cov dirs types = .ok p ∧ p.dim = n ∧ Filled p mean cov dirs types := by
  obtain ⟨hdim, hmean, hcov, hdirs, htypes⟩ := h
  have e2 : ¬ (((mean.any fun m => m.length ≠ n) || (cov.any fun c => c.length ≠ n) || (dirs.any fun ds => ds.length ≠ n) ||
      (dim.any fun k => k ≠ n) || (types.any fun t => t.length ≠ n)) = true) := by
    simp only [Bool.or_eq_true, Option.any_eq_true, decide_eq_true_eq, not_or, not_exists, not_and, not_not]
    exact ⟨⟨⟨⟨fun m hm => hmean m hm, fun c hc => (hcov c hc).1⟩, fun d hd => hdirs d hd⟩, fun k hk => hdim k hk⟩, fun t ht => htypes t ht⟩
  obtain ⟨ds, e3, h4, h5, h6⟩ : ∃ ds, dirs.getD (List.range (dim.getD 0)) = ds ∧ (∀ d, dirs = some d → ds = d) ∧
      (dirs = none → ∀ i < n, ds[i]? = some i) ∧ ds.length = n := by
    rcases dirs with _ | d
    · rcases dim with _ | k
      · simp at hd
      · have := hdim k rfl
        subst this
        exact ⟨_, rfl, by simp, fun _ i hi => by simp [hi], by simp⟩
    · exact ⟨d, rfl, by simp, by simp, hdirs d rfl⟩
  have e7 : (cov.getD (diagMat (List.replicate n 1))).length = n ∧ ∀ r ∈ cov.getD (diagMat (List.replicate n 1)), r.length = n := by
    rcases cov with _ | c
    · refine ⟨by simp [diagMat], ?_⟩
      intro r hr
      simp only [Option.getD_none, diagMat, List.length_replicate, List.mem_map] at hr
      obtain ⟨i, -, rfl⟩ := hr
      simp
    · simpa using hcov c rfl
  refine ⟨⟨n, ds, mean.getD (List.replicate n 0), cov.getD (diagMat (List.replicate n 1)), types.getD (List.replicate n "hermite")⟩,
    ?_, rfl, ?_⟩
  · have h7 := e7.2
    rcases mean with _ | m <;> rcases cov with _ | c <;> rcases dirs with _ | d <;> rcases dim with _ | k <;>
      simp_all [mkPosition]
  · refine ⟨by rintro m rfl; rfl, ?_, ?_, by rintro c rfl; rfl, ?_, e7.1, fun d hd => h4 d hd, h5, h6, by rintro t rfl; rfl, ?_, ?_⟩
    · rintro rfl i hi
      have hi : i < n := hi
      simp [hi]
    · rcases mean with _ | m
      · simp
      · simpa using hmean m rfl
    · rintro rfl i hi
      refine ⟨_, by simp only [Option.getD_none, diagMat, List.getElem?_map]; rw [List.getElem?_range (by simpa using hi)]; rfl, by simp, ?_⟩
      intro j hj
      have hi : i < n := hi
      have hj : j < n := hj
      simp [hj, hi]
    · rintro rfl i hi
      have hi : i < n := hi
      simp [hi]
    · rcases types with _ | t
      · simp
      · simpa using htypes t rfl

/-- C63. Conversely, a position is returned for consistent arguments only. -/
theorem C63_rejects {p : Position} (h : mkPosition dim mean cov dirs types = .ok p) :
    Consistent p.dim dim mean cov dirs types ∧ (dirs ≠ none ∨ dim ≠ none) := by
  have key : (dirs ≠ none ∨ dim ≠ none) ∧ ∃ n ds, (if (mean.any fun m => m.length ≠ n) || (cov.any fun c => c.length ≠ n) ||
      (dirs.any fun ds => ds.length ≠ n) || (dim.any fun k => k ≠ n) || (types.any fun t => t.length ≠ n) then Out.throws
      else if ∀ r ∈ cov.getD (diagMat (List.replicate n 1)), r.length = n then
        .ok ⟨n, ds, mean.getD (List.replicate n 0), cov.getD (diagMat (List.replicate n 1)), types.getD (List.replicate n "hermite")⟩
      else .throws) = .ok p := by
    by_cases h0 : dirs = none ∧ dim = none
    · obtain ⟨rfl, rfl⟩ := h0
      rcases mean with _ | m <;> rcases cov with _ | c <;> simp [mkPosition, Out.throws] at h
    · refine ⟨by tauto, ?_⟩
      rcases dirs with _ | d <;> rcases dim with _ | k <;> rcases mean with _ | m <;> rcases cov with _ | c <;>
        first | exact ⟨_, _, h⟩ | simp at h0
  obtain ⟨hgiven, n, ds, h⟩ := key
  split at h
  · simp [Out.throws] at h
  · rename_i hc
    simp only [Bool.or_eq_true, Option.any_eq_true, decide_eq_true_eq, not_or, not_exists, not_and, not_not] at hc
    obtain ⟨⟨⟨⟨h1, h2⟩, h3⟩, h4⟩, h5⟩ := hc
    split at h
    · rename_i hr
      injection h with h
      subst h
      refine ⟨⟨h4, h1, fun c hc => ⟨h2 c hc, ?_⟩, h3, h5⟩, hgiven⟩
      subst hc
      exact hr
    · simp [Out.throws] at h

/-- C63, the missing part. The directions do not default to the first ones if mean or covariance alone are given: `range(None)` raises. -/
theorem C63_mean_only_false (mean : Option (List ℝ)) (cov : Option (List (List ℝ))) (types : Option (List String)) :
    mkPosition none mean cov none types = .throws := by
  rcases mean with _ | m <;> rcases cov with _ | c <;> simp [mkPosition, Out.throws]

example : Consistent 2 none (some [0, 1]) none (some [3, 5]) none :=
  ⟨by simp, by simp, by simp, by simp, by simp⟩

end Hermipy.Props
