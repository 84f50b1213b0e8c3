import Verif.Lemmas.Restrict
import Verif.Lemmas.Loop

/-! # Consequences of `Sized` and `Usable` -/

namespace Hermipy

open Spec

/-- Two degrees that denote the same sets in every dimension. -/
def SameSets (s : IndexSet) (d degree : Nat) : Prop := ∀ k m, InSet s k d m ↔ InSet s k degree m

theorem SameSets.fits {s : IndexSet} {dim d degree : Nat} (h : SameSets s d degree) (hf : Fits s dim degree) :
    Fits s dim d := by
  refine ⟨hf.1, fun e => ?_⟩
  subst e
  have h1 := (h 1 [max 1 d]).1 ⟨rfl, by simp⟩
  have h2 := h1.2
  simp at h2
  intro m hl hs
  exact hf.2 rfl m hl (by omega)

theorem _root_.Hermipy.Spec.Sized.fits' {s : IndexSet} {dim degree : Nat} (h : Sized s dim degree) : Fits s dim degree :=
  ⟨h.dim_pos, h.fits⟩

theorem _root_.Hermipy.Spec.Sized.card_lt {s : IndexSet} {dim degree : Nat} (h : Sized s dim degree) :
    card s dim degree < u32 := by
  obtain ⟨L, hL, hlen⟩ := h.small
  rw [← (IterOk.of_list h.fits' hL).length]; exact hlen

theorem sized_of {s : IndexSet} {dim degree : Nat} (hf : Fits s dim degree) (hc : card s dim degree < u32) :
    Sized s dim degree := by
  obtain ⟨L, hL⟩ := iterOk_exists hf
  exact ⟨hf.1, hf.2, L, hL.list, by rw [hL.length]; exact hc⟩

theorem _root_.Hermipy.Spec.Sized.sub {s : IndexSet} {k dim degree : Nat} (h : Sized s dim degree) (hk : 1 ≤ k)
    (hkd : k ≤ dim) : Sized s k degree := by
  obtain ⟨j, rfl⟩ := Nat.exists_eq_add_of_le hkd
  exact sized_of (h.fits'.sub hk hkd) (lt_of_le_of_lt card_pad h.card_lt)

/-- The iterator constructed with any equivalent degree. -/
theorem _root_.Hermipy.Spec.Sized.open {s : IndexSet} {dim degree d : Nat} (h : Sized s dim degree)
    (hd : SameSets s d degree) :
    ∃ L, IterOk s dim degree L ∧ IterOk s dim d L ∧ s.s_size dim d = .ok L.length ∧ L.length < u32 := by
  obtain ⟨L, hL⟩ := iterOk_exists h.fits'
  obtain ⟨L', hL'⟩ := iterOk_exists (hd.fits h.fits')
  have := hL.congr hL' (fun m => (hd dim m).symm)
  subst this
  have hlt : L.length < u32 := by rw [hL.length]; exact h.card_lt
  exact ⟨L, hL, hL', hL'.size h.dim_pos hlt, hlt⟩

theorem _root_.Hermipy.Spec.Usable.degree {s : IndexSet} {dim degree : Nat} (h : Usable s dim degree) {L : List IVec}
    (hL : IterOk s dim degree L) :
    ∃ d, s.s_get_degree dim L.length = .ok d ∧ SameSets s d degree := by
  obtain ⟨L', d, h1, h2, h3⟩ := h.readable
  have := hL.unique (IterOk.of_list h.toSized.fits' h1)
  subst this
  exact ⟨d, h2, h3⟩

theorem _root_.Hermipy.Spec.Dirs.length_le {s : IndexSet} {dim : Nat} {dirs : IVec} (h : Dirs s dim dirs) :
    dirs.length ≤ dim := by
  have := List.Nodup.length_le_card (α := Fin dim) (l := dirs.pmap (fun d hd => ⟨d, hd⟩) h.lt)
    (by refine List.Nodup.pmap (fun a ha b hb hab => by simpa using hab) h.nodup)
  simpa using this

theorem _root_.Hermipy.Spec.Dirs.length_pos {s : IndexSet} {dim : Nat} {dirs : IVec} (h : Dirs s dim dirs) :
    1 ≤ dirs.length := by
  have := List.length_pos_iff.2 h.ne_nil
  omega

theorem dirs_of_increasing (s : IndexSet) {dim : Nat} {dirs : IVec} (hne : dirs ≠ []) (hp : dirs.Pairwise (· < ·))
    (hlt : ∀ d ∈ dirs, d < dim) : Dirs s dim dirs := by
  refine ⟨hne, hp.imp (fun h => Nat.ne_of_lt h), hlt, fun _ i hi h0 => ?_⟩
  by_contra hc
  have := List.pairwise_iff_getElem.1 hp 0 i (by omega) hi (by omega)
  omega

end Hermipy
