import Verif.Lemmas.TensorizeMat
import Verif.Lemmas.TensorizeVec

/-! # Tensorization of several matrices -/

namespace Hermipy

open Spec

variable {α : Type}

theorem Inc.eq_of_perm {l l' : IVec} (h : Inc l) (h' : Inc l') (hp : l.Perm l') : l = l' :=
  hp.eq_of_pairwise (le := (· < ·)) (fun a b _ _ h1 h2 => by omega) h h'

theorem tensorizeLoop_ok [MonoidWithZero α] {s : IndexSet} {degree dim : Nat} (hz : Sized s dim degree)
    (hu : ∀ k, 1 ≤ k → k < dim → Usable s k degree) :
    ∀ (bs : List (SpMat α × MBlock α)) (d : IVec) (ps : List (MBlock α)) (A : SpMat α) (Ld : List IVec),
      d ≠ [] → Inc d → IterOk s d.length degree Ld → (∀ b ∈ ps, ∀ x ∈ b.dirs, x ∈ d) →
      (∀ b ∈ bs, b.2.dirs ≠ [] ∧ Inc b.2.dirs ∧ IterOk s b.2.dirs.length degree b.2.list ∧
        IsMat b.1 b.2.list.length b.2.list.length b.2.fn) →
      (d ++ (bs.map (·.2.dirs)).flatten).Nodup → (d ++ (bs.map (·.2.dirs)).flatten).length = dim →
      IsMat A Ld.length Ld.length (fun i j => (ps.map fun b =>
        entry b.list b.fn (along d b.dirs (Ld.getD i [])) (along d b.dirs (Ld.getD j []))).prod) →
      ∃ d' L R, tensorizeLoop s A d (bs.map (·.1)) (bs.map (·.2.dirs)) = .ok R ∧ Inc d' ∧
        d'.Perm (d ++ (bs.map (·.2.dirs)).flatten) ∧ IterOk s dim degree L ∧
        IsMat R L.length L.length (fun i j => ((ps ++ bs.map (·.2)).map fun b =>
          entry b.list b.fn (along d' b.dirs (L.getD i [])) (along d' b.dirs (L.getD j []))).prod)
  | [], d, ps, A, Ld, hne, hd, hLd, hps, _, hnd, hlen, hA => by
    refine ⟨d, Ld, A, rfl, hd, by simp, ?_, by simpa using hA⟩
    simp at hlen
    rw [← hlen]
    exact hLd
  | (B, b) :: bs, d, ps, A, Ld, hne, hd, hLd, hps, hbs, hnd, hlen, hA => by
    obtain ⟨hb1, hb2, hb3, hb4⟩ := hbs (B, b) (by simp)
    simp only at hb1 hb2 hb3 hb4
    have hpos : 1 ≤ d.length := by have := List.length_pos_iff.2 hne; omega
    have hbpos : 1 ≤ b.dirs.length := by have := List.length_pos_iff.2 hb1; omega
    simp only [List.map_cons, List.flatten_cons, List.length_append] at hlen
    have hdisj : ∀ x ∈ d, x ∉ b.dirs := by
      rw [List.nodup_append] at hnd
      intro x hx hx'
      exact hnd.2.2 x hx x (by simp [hx']) rfl
    have hz' : Sized s (d.length + b.dirs.length) degree := hz.sub (by omega) (by omega)
    obtain ⟨L, hL⟩ := iterOk_exists hz'.fits'
    obtain ⟨P, eP, hP⟩ := tensorize_pair_ok (hu d.length hpos (by omega)) hz' hd hb2 hdisj hb1 hLd hb3 hA hb4 hL
    obtain ⟨hI, hperm, -, -⟩ := tensorize_dirs_spec _ 0 d b.dirs rfl hd hb2 hdisj
    have hl' : (tensorize_dirs 0 d b.dirs).1.length = d.length + b.dirs.length := by rw [hperm.length_eq]; simp
    have hsub : ∀ x ∈ d, x ∈ (tensorize_dirs 0 d b.dirs).1 := fun x hx => hperm.mem_iff.2 (by simp [hx])
    have hperm2 : ((tensorize_dirs 0 d b.dirs).1 ++ (bs.map (·.2.dirs)).flatten).Perm
        (d ++ (((B, b) :: bs).map (·.2.dirs)).flatten) := by
      rw [List.map_cons, List.flatten_cons, ← List.append_assoc]
      exact hperm.append_right _
    obtain ⟨d', L', R, e, h1, h2, h3, h4⟩ := tensorizeLoop_ok hz hu bs (tensorize_dirs 0 d b.dirs).1 (ps ++ [b]) P L
      (by rw [← List.length_pos_iff]; omega) hI (by rw [hl']; exact hL)
      (fun c hc x hx => by
        rcases List.mem_append.1 hc with hc | hc
        · exact hsub x (hps c hc x hx)
        · rw [List.mem_singleton] at hc
          subst hc
          exact hperm.mem_iff.2 (by simp [hx]))
      (fun c hc => hbs c (by simp [hc]))
      (hperm2.nodup_iff.2 hnd) (by rw [hperm2.length_eq]; simpa using hlen)
      (LawfulMat.congr hP fun i j hi hj => by
        rw [List.map_append, List.prod_append]
        congr 1
        · have mem : ∀ i, i < L.length → along (tensorize_dirs 0 d b.dirs).1 d (L.getD i []) ∈ Ld := by
            intro i hi
            refine (hLd.mem _).2 (inSet_along hI hd hne hsub ?_)
            rw [hl']
            apply (hL.mem _).1
            simp [hi]
          rw [entry, if_pos ⟨mem i hi, mem j hj⟩]
          congr 1
          apply List.map_congr_left
          intro c hc
          have gi : Ld.getD (Ld.idxOf (along (tensorize_dirs 0 d b.dirs).1 d (L.getD i []))) [] =
              along (tensorize_dirs 0 d b.dirs).1 d (L.getD i []) := by
            rw [List.getD_eq_getElem?_getD, getElem?_idxOf' (mem i hi)]; rfl
          have gj : Ld.getD (Ld.idxOf (along (tensorize_dirs 0 d b.dirs).1 d (L.getD j []))) [] =
              along (tensorize_dirs 0 d b.dirs).1 d (L.getD j []) := by
            rw [List.getD_eq_getElem?_getD, getElem?_idxOf' (mem j hj)]; rfl
          rw [gi, gj, along_along (hps c hc), along_along (hps c hc)]
        · simp)
    refine ⟨d', L', R, ?_, h1, h2.trans hperm2, h3, ?_⟩
    · rw [List.map_cons, List.map_cons, tensorizeLoop]
      simp only [eP, Out.ok_bind]
      exact e
    · simpa using h4

theorem convertAll_ok {S T : Type} [Convert S T] [Meaning S α] [Meaning T α] [LawfulConvert S T α] :
    ∀ (bs : List (S × MBlock α)), (∀ b ∈ bs, 1 ≤ b.2.list.length ∧ IsMat b.1 b.2.list.length b.2.list.length b.2.fn) →
    ∃ bs' : List (T × MBlock α), convertAll (bs.map (·.1)) = .ok (bs'.map (·.1)) ∧ bs'.map (·.2) = bs.map (·.2) ∧
      ∀ b ∈ bs', IsMat b.1 b.2.list.length b.2.list.length b.2.fn
  | [], _ => ⟨[], rfl, rfl, by simp⟩
  | (A, b) :: bs, h => by
    obtain ⟨m', e, hm⟩ := LawfulConvert.convert (T := T) (h (A, b) (by simp)).1 (h (A, b) (by simp)).2
    obtain ⟨bs', e', h1, h2⟩ := convertAll_ok (T := T) bs (fun c hc => h c (by simp [hc]))
    refine ⟨(m', b) :: bs', ?_, by simp [h1], ?_⟩
    · rw [List.map_cons, convertAll, e, e']
      rfl
    · intro c hc
      rcases List.mem_cons.1 hc with rfl | hc
      · exact hm
      · exact h2 c hc

theorem map_pair_eq {S T U : Type} {l : List (S × U)} {l' : List (T × U)} (h : l'.map (·.2) = l.map (·.2)) {V : Type}
    (g : U → V) : l'.map (fun x => g x.2) = l.map (fun x => g x.2) := by
  have := congrArg (List.map g) h
  rw [List.map_map, List.map_map] at this
  exact this

theorem tensorize_mats_ok {S T : Type} [MonoidWithZero α] [Meaning S α] [Meaning T α] [Convert S (SpMat α)]
    [Convert (SpMat α) T] [LawfulConvert S (SpMat α) α] [LawfulConvert (SpMat α) T α] {s : IndexSet} {dim degree : Nat}
    (hz : Sized s dim degree) (hu : ∀ k, 1 ≤ k → k < dim → Usable s k degree) {bs : List (S × MBlock α)}
    (hpart : Partition dim (bs.map (·.2.dirs)))
    (hbs : ∀ b ∈ bs, s.s_list b.2.dirs.length degree = .ok b.2.list ∧ IsMat b.1 b.2.list.length b.2.list.length b.2.fn)
    {L : List IVec} (hL : IterOk s dim degree L) :
    ∃ R : T, tensorize_mats_dirs (α := α) s (bs.map (·.1)) (bs.map (·.2.dirs)) = .ok R ∧
      IsMat R L.length L.length (fun i j => (bs.map fun b => b.2.entry (L.getD i []) (L.getD j [])).prod) := by
  have hlen : ((bs.map (·.2.dirs)).flatten).length = dim := by rw [hpart.perm.length_eq]; simp
  have hle : ∀ b ∈ bs, b.2.dirs.length ≤ dim := by
    intro b hb
    rw [← hlen, List.length_flatten]
    exact le_sum_of_mem (List.mem_map.2 ⟨b.2.dirs, List.mem_map.2 ⟨b, hb, rfl⟩, rfl⟩)
  have hinc : ∀ b ∈ bs, b.2.dirs ≠ [] ∧ Inc b.2.dirs := fun b hb => hpart.inc _ (List.mem_map.2 ⟨b, hb, rfl⟩)
  have hok : ∀ b ∈ bs, IterOk s b.2.dirs.length degree b.2.list := by
    intro b hb
    have := List.length_pos_iff.2 (hinc b hb).1
    exact IterOk.of_list (hz.sub (by omega) (hle b hb)).fits' (hbs b hb).1
  have hne : ∀ b ∈ bs, 1 ≤ b.2.list.length := by
    intro b hb
    have := List.length_pos_iff.2 (hok b hb).runs.ne_nil
    omega
  obtain ⟨bs', ecv, hmap, hbs'⟩ := convertAll_ok (T := SpMat α) bs (fun b hb => ⟨hne b hb, (hbs b hb).2⟩)
  have hdirs : bs'.map (·.2.dirs) = bs.map (·.2.dirs) := map_pair_eq hmap (fun u => u.dirs)
  have hmem : ∀ b ∈ bs', ∃ c ∈ bs, c.2 = b.2 := by
    intro b hb
    have : b.2 ∈ bs'.map (·.2) := List.mem_map.2 ⟨b, hb, rfl⟩
    rw [hmap] at this
    exact List.mem_map.1 this
  have h0 := hz.dim_pos
  have hnodup : ((bs.map (·.2.dirs)).flatten).Nodup := hpart.perm.nodup_iff.2 List.nodup_range
  have hLne := List.length_pos_iff.2 hL.runs.ne_nil
  match bs', ecv, hmap, hbs', hdirs, hmem with
  | [], _, _, _, hdirs, _ =>
    rw [← hdirs] at hlen
    simp at hlen
    omega
  | (A, b0) :: bs', ecv, hmap, hbs', hdirs, hmem =>
    obtain ⟨c0, hc0, ec0⟩ := hmem (A, b0) (by simp)
    simp only at ec0
    rw [← hdirs] at hlen hnodup
    have hall : ∀ b ∈ (A, b0) :: bs', b.2.dirs ≠ [] ∧ Inc b.2.dirs ∧ IterOk s b.2.dirs.length degree b.2.list ∧
        IsMat b.1 b.2.list.length b.2.list.length b.2.fn := by
      intro b hb
      obtain ⟨c, hc, ec⟩ := hmem b hb
      refine ⟨?_, ?_, ?_, hbs' b hb⟩
      · rw [← ec]; exact (hinc c hc).1
      · rw [← ec]; exact (hinc c hc).2
      · rw [← ec]; exact hok c hc
    obtain ⟨k1, k2, k3, k4⟩ := hall (A, b0) (by simp)
    simp only at k1 k2 k3 k4
    have mem0 : ∀ i, i < b0.list.length → along b0.dirs b0.dirs (b0.list.getD i []) = b0.list.getD i [] := by
      intro i hi
      refine along_self k2.nodup (inSet_length ((k3.mem _).1 ?_))
      simp [hi]
    have idx0 : ∀ i, i < b0.list.length → b0.list.getD i [] ∈ b0.list ∧ b0.list.idxOf (b0.list.getD i []) = i := by
      intro i hi
      have hg : b0.list[i]? = some (b0.list.getD i []) := by simp [hi]
      exact ⟨List.mem_of_getElem? hg, idxOf_of_getElem? k3.nodup hg⟩
    obtain ⟨d', L', R, e, hI, hp, hL', hR⟩ := tensorizeLoop_ok hz hu bs' b0.dirs [b0] A b0.list k1 k2 k3
      (by simp) (fun b hb => hall b (by simp [hb])) (by simpa using hnodup) (by simpa using hlen)
      (LawfulMat.congr k4 fun i j hi hj => by
        simp only [List.map_cons, List.map_nil, List.prod_cons, List.prod_nil, mul_one]
        rw [mem0 i hi, mem0 j hj, entry, if_pos ⟨(idx0 i hi).1, (idx0 j hj).1⟩, (idx0 i hi).2, (idx0 j hj).2])
    have := hL.unique hL'; subst this
    have hd' : d' = List.range dim := by
      refine hI.eq_of_perm List.pairwise_lt_range (hp.trans ?_)
      have := hpart.perm
      rw [← hdirs] at this
      simpa using this
    subst hd'
    have hR' : IsMat R L.length L.length
        (fun i j => (bs.map fun b => b.2.entry (L.getD i []) (L.getD j [])).prod) := by
      refine LawfulMat.congr hR fun i j hi hj => ?_
      have e1 : (bs.map fun b => b.2.entry (L.getD i []) (L.getD j [])) =
          ((A, b0) :: bs').map fun b => b.2.entry (L.getD i []) (L.getD j []) :=
        (map_pair_eq hmap (fun u => u.entry (L.getD i []) (L.getD j []))).symm
      rw [e1]
      have e2 : [b0] ++ bs'.map (·.2) = ((A, b0) :: bs').map (·.2) := by simp
      rw [e2, List.map_map]
      congr 1
      apply List.map_congr_left
      intro b hb
      obtain ⟨c, hc, ec⟩ := hmem b hb
      have hlt : ∀ x ∈ b.2.dirs, x < dim := by
        intro x hx
        have : x ∈ (bs.map (·.2.dirs)).flatten := by
          rw [List.mem_flatten]
          exact ⟨c.2.dirs, List.mem_map.2 ⟨c, hc, rfl⟩, by rw [ec]; exact hx⟩
        simpa using hpart.perm.mem_iff.1 this
      simp only [Function.comp, MBlock.entry]
      rw [along_range hlt, along_range hlt]
    obtain ⟨T', eT, hT⟩ := LawfulConvert.convert (T := T) (by omega) hR'
    refine ⟨T', ?_, hT⟩
    rw [tensorize_mats_dirs, ecv, ← hdirs]
    simp only [List.map_cons, Out.ok_bind, e]
    exact eT

end Hermipy
