import Verif.Lemmas.GCM
import Verif.Model.Records

/-! The shares of `AEAD` when ALICE's label bits are given by a mask. -/

namespace Verif.Lemmas
open Verif.Model Verif.Model.AEAD Verif.Model.Integer Verif.Spec

theorem map_getD (l : List Bool) : (List.range l.length).map (fun i => l.getD i false) = l := by
  apply List.ext_getElem
  · simp
  · intro i h1 h2
    simp at h1
    simp [List.getD, h1]

/-- The shares of a value when ALICE's bits are a list of its length. -/
theorem share_mask (l : List Bool) (v : Integer) (h : l.length = v.length) :
    share (fun i => l.getD i false) v = (l, Integer.xor l v) := by
  have e : (List.range v.length).map (fun i => l.getD i false) = l := by rw [← h]; exact map_getD l
  unfold share
  simp only [e]

/-- `stream` when ALICE's label bits of the wires that are kept are `a` and those of `Z0` are `a0`. -/
theorem stream_mask (st : State) (fiv iv : List Byte) (n : Nat) (a0 a : List Bool) (h0 : a0.length = 128) (ha : a.length = 8 * n)
    (hf : st.fixedIv = strToInt fiv) (hf4 : fiv.length = 4) (hiv : iv.length = 8) :
    ∃ nonce, stream st iv n (fun i => (List.replicate (padBits n) false ++ a ++ a0).getD i false)
      = .ok ({ st with nonce := nonce, gcZ0A := st.gcZ0A ++ [blk a0],
                       gcZ0B := st.gcZ0B ++ [blk (Integer.xor a0 (strToInt (GCM.bytesOf (st.E (GCM.j0 (fiv ++ iv))))))],
                       zkZ0 := st.zkZ0 ++ [ofBytes (blockBytes (blk a0))] },
        strToInt (GCM.keyStream st.E (GCM.j0 (fiv ++ iv)) n),
        (a, Integer.xor a (strToInt (GCM.keyStream st.E (GCM.j0 (fiv ++ iv)) n))),
        blk a0, blk (Integer.xor a0 (strToInt (GCM.bytesOf (st.E (GCM.j0 (fiv ++ iv))))))) := by
  obtain ⟨nonce, g1, -, -⟩ := gctr_eq st.E (1 + ctrLen n) [] (strToInt (fiv ++ iv ++ [0#8, 0#8, 0#8, 1#8]))
    (by simp [hf4, hiv])
  rw [blk_strToInt, List.nil_append] at g1
  change gctr st.E (1 + ctrLen n) [] _ = .ok (strToInt (ctrBytes st.E (GCM.j0 (fiv ++ iv)) (1 + ctrLen n)), nonce) at g1
  generalize hj : GCM.j0 (fiv ++ iv) = j at g1 ⊢
  generalize hZ : strToInt (ctrBytes st.E j (1 + ctrLen n)) = Z at g1
  have hc := cutZ_stream st.E j n
  have ht := topZ_stream st.E j n
  rw [hZ] at hc ht
  have hZl : Z.length = 8 * (16 * (1 + ctrLen n)) := by rw [← hZ]; simp
  have p1 := padBits_total n
  have p2 := padBits_eq n
  generalize hM : List.replicate (padBits n) false ++ a ++ a0 = M
  have hMl : M.length = Z.length := by rw [← hM]; simp [h0, ha]; omega
  have hcut : cutZ n M = a := by
    rw [cutZ, ← hM]
    simp only [List.length_append, List.length_replicate, h0, Nat.add_sub_cancel]
    rw [List.take_left' (by simp), List.drop_left' (by simp)]
  have htop : topZ M = a0 := by
    rw [topZ, ← hM]
    simp only [List.length_append, List.length_replicate, h0, Nat.add_sub_cancel]
    rw [List.drop_left' (by simp)]
  have hs := share_mask M Z hMl
  have i1 := integerToBlock_eq (topZ M) (by rw [htop, h0])
  have i2 := integerToBlock_eq (topZ (Integer.xor M Z)) (by simp [topZ, Integer.xor, hMl]; omega)
  rw [topZ_xor _ _ hMl, htop, ht] at i2
  rw [htop] at i1
  refine ⟨nonce, ?_⟩
  have e1 : (M.drop (M.length - 128)) = a0 := htop
  have e2 : ((Integer.xor M Z).drop ((Integer.xor M Z).length - 128)) = Integer.xor a0 (strToInt (GCM.bytesOf (st.E j))) := by
    rw [← htop, ← ht, ← topZ_xor _ _ hMl]; rfl
  simp only [stream, hf, setNonce_eq fiv iv hiv, bind, Except.bind, g1, hs, e1, e2, i1, i2]
  rw [← hc]
  conv_rhs => rw [← hcut, ← cutZ_xor _ _ _ hMl]
  rfl

end Verif.Lemmas
