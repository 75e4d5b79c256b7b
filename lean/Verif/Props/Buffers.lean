import Verif.Lemmas.BuffersPRF
import Verif.Lemmas.Addmod
import Verif.Lemmas.GCM
import Verif.Lemmas.BlockConv
import Verif.Props.PRF

/-! C65: the arrays the code works on.  Every function below is the code on arrays (`Model/Buffers.lean`): an access outside
an array and a read of a cell that was never written are undefined behaviour. -/

namespace Verif.Props
open Verif.Model Verif.Model.Integer Verif.Model.Buffers Verif.Model.SHA Verif.Lemmas
open Verif.Spec Verif.Spec.Encoding

/-- Two arrays written one after the other: the result, for every pair of lengths the arrays of the caller hold. -/
theorem C65_concat (a b : List Byte) (alen blen : Nat) (ha : alen ≤ a.length) (hb : blen ≤ b.length) :
    concat2 (given a) alen (given b) blen = .ok (a.take alen ++ b.take blen) := by
  have h1 : (a.take alen).length = alen := by rw [List.length_take]; omega
  have h2 : (b.take blen).length = blen := by rw [List.length_take]; omega
  unfold concat2
  simp only [load_given a alen ha, okBind, load_given b blen hb]
  rw [store_alloc _ _ (by omega)]
  simp only [okBind]
  rw [store_front _ _ _ _ h1 (by omega)]
  simp only [okBind]
  rw [show alen + blen - (a.take alen).length - (b.take blen).length = 0 by omega,
    show (given (a.take alen ++ b.take blen) ++ (alloc 0 : Buf Byte)) = given (a.take alen ++ b.take blen) by simp [alloc]]
  exact load_all _ _ (by rw [List.length_append]; omega)

example : concat2 (given [1, 2, 3]) 2 (given [4, 5]) 2 = .ok [1, 2, 4, 5] := C65_concat [1, 2, 3] [4, 5] 2 2 (by decide) (by decide)

/-- A length that the array of the caller does not hold: the code reads outside it. -/
theorem C65_concat_short (a b : List Byte) (alen blen : Nat) (h : a.length < alen ∨ b.length < blen) :
    ∃ e, concat2 (given a) alen (given b) blen = .error (.ub e) := by
  unfold concat2
  by_cases ha : a.length < alen
  · refine ⟨"read outside the array", ?_⟩
    rw [load_short (given a) 0 alen (by rw [length_given]; omega)]; rfl
  · have hb : b.length < blen := h.resolve_left ha
    have h1 : (a.take alen).length = alen := by rw [List.length_take]; omega
    refine ⟨"read outside the array", ?_⟩
    simp only [load_given a alen (by omega), okBind]
    rw [store_alloc _ _ (by omega), okBind, load_short (given b) 0 blen (by rw [length_given]; omega)]; rfl

example : ∃ e, concat2 (given [1, 2, 3]) 2 (given [4, 5]) 3 = .error (.ub e) := C65_concat_short [1, 2, 3] [4, 5] 2 3 (by decide)

/-- The reversed copies. -/
theorem C65_reversed (a : List Byte) (n : Nat) (h : n ≤ a.length) : revCopy (given a) n = .ok (a.take n).reverse := by
  have h1 : (a.take n).length = n := by rw [List.length_take]; omega
  unfold revCopy
  simp only [load_given a n h, okBind, store_full _ n h1, rev_given _ n h1]
  exact load_all _ n (by rw [List.length_reverse]; exact h1)

example : revCopy (given [1, 2, 3, 4, 5, 6, 7, 8, 9]) 8 = .ok [8, 7, 6, 5, 4, 3, 2, 1] := C65_reversed [1, 2, 3, 4, 5, 6, 7, 8, 9] 8 (by decide)

/-- The buffer of the pre-master secret: `BN_num_bytes(q)` bytes, least significant first, that hold the secret. -/
theorem C65_pms (q n : Nat) (h : bnNumBytes n ≤ bnNumBytes q) :
    ∃ buf, pmsBuffer q n = .ok buf ∧ buf.length = bnNumBytes q ∧ val (ofBytes buf) = n := by
  obtain ⟨buf, e, l, v⟩ := bnBuffer_spec (bnNumBytes q) n h
  refine ⟨buf, ?_, ?_, v⟩
  · have hb : buf = (List.replicate (bnNumBytes q - bnNumBytes n) 0 ++ bn2bin n).reverse := by
      unfold bnBuffer at e
      rw [if_pos h] at e
      injection e with e
      exact e.symm
    have hn : (bn2bin n).length = bnNumBytes n := rfl
    unfold pmsBuffer fill storeZ
    simp only
    rw [store_full _ _ (by simp)]
    simp only [okBind]
    rw [if_neg (by omega), show ((bnNumBytes q : Int) - (bnNumBytes n : Int)).toNat = bnNumBytes q - bnNumBytes n by omega]
    have hsplit : (List.replicate (bnNumBytes q) (0 : Byte)) =
        List.replicate (bnNumBytes q - bnNumBytes n) 0 ++ List.replicate (bnNumBytes n) 0 := by
      rw [← List.replicate_add]; congr 1; omega
    rw [hsplit, show given (List.replicate (bnNumBytes q - bnNumBytes n) (0 : Byte) ++ List.replicate (bnNumBytes n) 0)
      = given (List.replicate (bnNumBytes q - bnNumBytes n) 0) ++ given (List.replicate (bnNumBytes n) 0) by simp [given]]
    rw [store_end _ _ _ _ (by simp) (by rw [length_given, hn]; simp)]
    have hl : (List.replicate (bnNumBytes q - bnNumBytes n) (0 : Byte) ++ bn2bin n).length = bnNumBytes q := by
      rw [List.length_append, List.length_replicate, hn]; omega
    simp only [okBind, rev_given _ _ hl]
    rw [hb]
    exact load_all _ _ (by rw [List.length_reverse]; exact hl)
  · have := l
    rw [length_ofBytes] at this
    omega

/-- A secret shorter than the modulus is padded. -/
example : ∃ buf, pmsBuffer (2 ^ 255 + 95) 258 = .ok buf ∧ buf.length = 32 ∧ val (ofBytes buf) = 258 := by
  have h := C65_pms (2 ^ 255 + 95) 258 (by decide +kernel)
  rwa [show bnNumBytes (2 ^ 255 + 95) = 32 by decide +kernel] at h

/-- A secret longer than the modulus: the code writes before the array. -/
theorem C65_pms_long (q n : Nat) (h : bnNumBytes q < bnNumBytes n) : ∃ e, pmsBuffer q n = .error (.ub e) := by
  refine ⟨"write before the array", ?_⟩
  unfold pmsBuffer fill storeZ
  simp only
  rw [store_full _ _ (by simp)]
  simp only [okBind]
  rw [if_pos (by omega)]; rfl

example : ∃ e, pmsBuffer 251 256 = .error (.ub e) := C65_pms_long 251 256 (by decide +kernel)

/-- The tag input of the record layer: the additional data and the ciphertext, each padded with zeros to whole blocks, and
their lengths in bits as 64-bit numbers, all reversed. -/
theorem C65_tag (aad ctxt : List Byte) (aadLen msgLen : Nat) (ha : aadLen ≤ aad.length) (hm : msgLen ≤ ctxt.length) :
    tagX (given aad) aadLen (given ctxt) msgLen = .ok (GCM.hashInput (aad.take aadLen) (ctxt.take msgLen)).reverse := by
  rw [← tagBuffer_eq]
  have h1 : (aad.take aadLen).length = aadLen := by rw [List.length_take]; omega
  have h2 : (ctxt.take msgLen).length = msgLen := by rw [List.length_take]; omega
  have h3 : ∀ n, (AEAD.lenBytes n).length = 8 := fun n => by simp [AEAD.lenBytes]
  unfold tagX fill AEAD.tagBuffer
  simp only [load_given aad aadLen ha, load_given ctxt msgLen hm, okBind, h1, h2]
  generalize AEAD.padBits msgLen = u
  generalize AEAD.padBits aadLen = v
  rw [store_alloc _ _ (by omega), okBind]
  rw [store_front _ _ _ _ (by omega) (by rw [List.length_replicate]; omega), okBind]
  rw [store_front _ _ _ _ (by simp only [List.length_append, List.length_replicate]; omega)
    (by rw [List.length_replicate]; omega), okBind]
  rw [store_front _ _ _ _ (by simp only [List.length_append, List.length_replicate]; omega)
    (by simp only [List.length_replicate]; omega), okBind]
  rw [store_front _ _ _ _ (by simp only [List.length_append, List.length_replicate]; omega)
    (by simp only [List.length_replicate, h3]; omega), okBind]
  rw [store_front _ _ _ _ (by simp only [List.length_append, List.length_replicate, h3]; omega)
    (by simp only [List.length_replicate, h3]; omega), okBind]
  have hz : u / 8 + msgLen + v / 8 + aadLen + 16 - (aad.take aadLen).length - (List.replicate (v / 8) (0 : Byte)).length
      - (ctxt.take msgLen).length - (List.replicate (u / 8) (0 : Byte)).length - (AEAD.lenBytes aadLen).length
      - (AEAD.lenBytes msgLen).length = 0 := by
    simp only [List.length_replicate, h1, h2, h3]; omega
  rw [hz, show ∀ l : List Byte, given l ++ (alloc 0 : Buf Byte) = given l from fun l => by simp [alloc]]
  have hl : (aad.take aadLen ++ List.replicate (v / 8) (0 : Byte) ++ ctxt.take msgLen ++ List.replicate (u / 8) 0
      ++ AEAD.lenBytes aadLen ++ AEAD.lenBytes msgLen).length = u / 8 + msgLen + v / 8 + aadLen + 16 := by
    simp only [List.length_append, List.length_replicate, h1, h2, h3]; omega
  rw [rev_given _ _ hl, okBind]
  exact load_all _ _ (by rw [List.length_reverse]; exact hl)

example : tagX (given [1, 2]) 1 (given [3]) 1
    = .ok ([1] ++ List.replicate 15 0 ++ [3] ++ List.replicate 15 0 ++ [0, 0, 0, 0, 0, 0, 0, 8] ++ [0, 0, 0, 0, 0, 0, 0, 8]).reverse := by
  rw [C65_tag [1, 2] [3] 1 1 (by decide) (by decide)]
  decide +kernel

/-- A length that the array of the caller does not hold. -/
theorem C65_tag_short (aad ctxt : List Byte) (aadLen msgLen : Nat) (h : aad.length < aadLen ∨ ctxt.length < msgLen) :
    ∃ e, tagX (given aad) aadLen (given ctxt) msgLen = .error (.ub e) := by
  refine ⟨"read outside the array", ?_⟩
  unfold tagX fill
  by_cases ha : aad.length < aadLen
  · simp only
    rw [load_short (given aad) 0 aadLen (by rw [length_given]; omega)]; rfl
  · have hb : ctxt.length < msgLen := h.resolve_left ha
    have h1 : (aad.take aadLen).length = aadLen := by rw [List.length_take]; omega
    simp only [load_given aad aadLen (by omega), okBind]
    rw [store_alloc _ _ (by omega), okBind]
    rw [store_front _ _ _ _ (by omega) (by rw [List.length_replicate]; omega), okBind]
    rw [load_short (given ctxt) 0 msgLen (by rw [length_given]; omega)]; rfl

example : ∃ e, tagX (given [1, 2]) 3 (given [3]) 1 = .error (.ub e) := C65_tag_short [1, 2] [3] 3 1 (by decide)

/-- `block_to_hex` writes the first `16 * len` cells of `out`: the bytes of the blocks, most significant first. -/
theorem C65_block_to_hex (out : Buf Byte) (ins : List Block) (len : Nat) (hi : len ≤ ins.length) (ho : 16 * len ≤ out.length) :
    blockToHexC out (given ins) len
      = .ok (given ((ins.take len).flatMap fun b => (blockBytes b).reverse) ++ out.drop (16 * len)) := by
  have h1 : (ins.take len).length = len := by rw [List.length_take]; omega
  have h2 : ((ins.take len).reverse.flatMap blockBytes).length = len * 16 := by
    rw [List.length_flatMap, show (fun b => (blockBytes b).length) = fun _ => 16 from funext fun b => by simp [blockBytes]]
    simp; omega
  have h3 : ((ins.take len).reverse.flatMap blockBytes).reverse = (ins.take len).flatMap fun b => (blockBytes b).reverse := by
    rw [List.reverse_flatMap, List.reverse_reverse]; rfl
  unfold blockToHexC
  simp only [load_given ins len hi, okBind, store_full _ len h1, rev_given _ len h1]
  rw [load_all _ len (by rw [List.length_reverse]; exact h1)]
  simp only [okBind]
  rw [rev_given _ _ h2, okBind, load_all _ _ (by rw [List.length_reverse]; exact h2), okBind, h3]
  have h4 : ((ins.take len).flatMap fun b => (blockBytes b).reverse).length = 16 * len := by
    rw [← h3, List.length_reverse, h2]; omega
  rw [store_overlay _ _ (by omega), h4]

example : blockToHexC (alloc 17) (given [0x0102#128]) 1 = .ok (given (List.replicate 14 0 ++ [1, 2]) ++ [none]) := by
  rw [C65_block_to_hex (alloc 17) [0x0102#128] 1 (by decide) (by decide)]
  decide +kernel

/-- `hex_to_block` is its inverse: the blocks written are those whose bytes, most significant first, are the input. -/
theorem C65_hex_to_block (out : Buf Block) (ins : List Byte) (len : Nat) (hi : 16 * len ≤ ins.length) (ho : len ≤ out.length) :
    ∃ bs, hexToBlockC out (given ins) (16 * len) = .ok (given bs ++ out.drop len) ∧ bs.length = len
      ∧ (bs.flatMap fun b => (blockBytes b).reverse) = ins.take (16 * len) := by
  have h1 : (ins.take (16 * len)).length = 16 * len := by rw [List.length_take]; omega
  refine ⟨(blocksOfBytes len (ins.take (16 * len)).reverse).reverse, ?_, by simp, ?_⟩
  · unfold hexToBlockC
    rw [if_neg (by omega)]
    simp only [load_given ins (16 * len) hi, okBind, store_full _ _ h1, rev_given _ _ h1]
    rw [load_all _ _ (by rw [List.length_reverse]; exact h1)]
    simp only [okBind, show 16 * len / 16 = len by omega]
    rw [rev_given _ _ (by simp), okBind, load_all _ _ (by simp), okBind, store_overlay _ _ (by simpa using ho)]
    simp
  · have h2 := flatMap_blocksOfBytes len (ins.take (16 * len)).reverse (by rw [List.length_reverse, h1])
    have h3 : ((blocksOfBytes len (ins.take (16 * len)).reverse).flatMap blockBytes).reverse = ins.take (16 * len) := by
      rw [h2, List.reverse_reverse]
    rw [List.reverse_flatMap] at h3
    exact h3

example : ∃ bs, hexToBlockC (alloc 3) (given (List.replicate 33 7)) (16 * 2) = .ok (given bs ++ [none]) ∧ bs.length = 2
    ∧ (bs.flatMap fun b => (blockBytes b).reverse) = List.replicate 32 7 :=
  C65_hex_to_block (alloc 3) (List.replicate 33 7) 2 (by decide) (by decide)

/-- A length that is not a multiple of 16 is refused before any access. -/
theorem C65_hex_refused (out : Buf Block) (ins : Buf Byte) (len : Nat) (h : len % 16 ≠ 0) :
    hexToBlockC out ins len = .error (.error "the length of the bytes is incorrect!") := by
  unfold hexToBlockC; rw [if_pos h]

example : hexToBlockC (alloc 3) (given [1]) 1 = .error (.error "the length of the bytes is incorrect!") :=
  C65_hex_refused _ _ 1 (by decide)

/-- The masking loop: with a key stream `Z` of as many bytes as the message, `ctxt[i] = msg[i] ^ z[i]` for the bytes `z` of `Z`,
and the cells behind the message are left as they are. -/
theorem C65_mask (ctxt : Buf Byte) (msg : List Byte) (Z : Integer) (msgLen : Nat) (hz : Z.length = 8 * msgLen)
    (hm : msgLen ≤ msg.length) (hc : msgLen ≤ ctxt.length) :
    ∃ z, bytesBits z = Z.reverse ∧ z.length = msgLen ∧
      maskInto ctxt (given msg) Z msgLen = .ok (given (List.zipWith (· ^^^ ·) (msg.take msgLen) z) ++ ctxt.drop msgLen) := by
  obtain ⟨z, e, hbits⟩ := integerToChars_bits Z (by omega)
  have hl : z.length = msgLen := by
    have := congrArg List.length hbits
    rw [length_bytesBits, List.length_reverse] at this
    omega
  refine ⟨z, hbits, hl, ?_⟩
  unfold maskInto toCharsInto
  simp only [e, okBind, store_full _ msgLen hl]
  have key : ∀ n, n ≤ msgLen → (List.range n).foldlM (fun c i => do
      let m ← load (given msg) i 1
      let k ← load (given z) i 1
      store c i (List.zipWith (· ^^^ ·) m k)) ctxt =
      (.ok (given (List.zipWith (· ^^^ ·) (msg.take n) (z.take n)) ++ ctxt.drop n) : Res (Buf Byte)) := by
    intro n
    induction n with
    | zero => intro _; simp [given]; rfl
    | succ n ih =>
      intro hn
      have ld : ∀ (l : List Byte) (h : n < l.length), load (given l) n 1 = .ok [l[n]] := by
        intro l h
        refine load_ok' _ _ _ _ rfl ?_ (by rw [length_given]; omega)
        unfold given
        rw [← List.map_drop, ← List.map_take, List.drop_eq_getElem_cons h]; rfl
      have tk : ∀ (l : List Byte) (h : n < l.length), l.take (n + 1) = l.take n ++ [l[n]] := by
        intro l h
        rw [List.take_add_one, List.getElem?_eq_getElem h]; rfl
      have h1 : n < msg.length := by omega
      have h2 : n < z.length := by omega
      rw [List.range_succ, List.foldlM_append, ih (by omega), okBind, List.foldlM_cons]
      simp only [ld msg h1, ld z h2, okBind, List.zipWith_cons_cons, List.zipWith_nil_left]
      have hlen : (given (List.zipWith (· ^^^ ·) (msg.take n) (z.take n)) : Buf Byte).length = n := by
        rw [length_given, List.length_zipWith, List.length_take, List.length_take]; omega
      rw [store_set _ _ _ (by rw [List.length_append, hlen, List.length_drop]; omega)]
      rw [okBind, List.set_append_right _ _ (by omega), hlen, Nat.sub_self,
        show ctxt.drop n = ctxt[n] :: ctxt.drop (n + 1) from List.drop_eq_getElem_cons (by omega), List.set_cons_zero]
      rw [tk msg h1, tk z h2, List.zipWith_append (by rw [List.length_take, List.length_take]; omega)]
      simp [given]; rfl
  rw [key msgLen (Nat.le_refl _), show z.take msgLen = z by rw [← hl, List.take_length]]

example : ∃ z, bytesBits z = (List.replicate 16 true).reverse ∧ z.length = 2 ∧
    maskInto (alloc 3) (given [1, 2]) (List.replicate 16 true) 2
      = .ok (given (List.zipWith (· ^^^ ·) ([1, 2] : List Byte) z) ++ [none]) :=
  C65_mask (alloc 3) [1, 2] (List.replicate 16 true) 2 rfl (by decide) (by decide)

/-- A key stream longer than the array `z`: the code writes outside it. -/
theorem C65_mask_long (ctxt : Buf Byte) (msg : Buf Byte) (Z : Integer) (msgLen : Nat) (h8 : Z.length % 8 = 0)
    (hz : 8 * msgLen < Z.length) : ∃ e, maskInto ctxt msg Z msgLen = .error (.ub e) := by
  obtain ⟨z, e, hbits⟩ := integerToChars_bits Z h8
  have hl : 8 * z.length = Z.length := by
    have := congrArg List.length hbits
    rw [length_bytesBits, List.length_reverse] at this
    omega
  refine ⟨"write outside the array", ?_⟩
  unfold maskInto toCharsInto
  simp only [e, okBind]
  rw [store_short _ _ _ (by rw [length_alloc]; omega)]; rfl

example : ∃ e, maskInto (alloc 3) (given [1, 2]) (List.replicate 16 true) 1 = .error (.ub e) :=
  C65_mask_long _ _ _ 1 (by decide) (by decide)

/-- SHA-256 of the public part of a message on the array of 64 cells: no cell is read before it is written, and the digest
is that of the list model whatever the memory held before. -/
theorem C65_sha (g : List Byte) (hg : g.length = 64) (dig : List (BitVec 32)) (pub : List Byte) :
    plainTailC dig pub = .ok (plainTail g dig pub) := plainTailC_eq g hg dig pub

/-- The digest of a message whose first block is `sec` and whose other bytes are public. -/
theorem C65_sha_digest (sec : List Bool) (hs : sec.length = 512) (pub : List Byte) (hp : 512 + 8 * pub.length < 2 ^ 64) :
    plainTailC (firstState sec) pub = .ok (SHA256.sha256Words (sec ++ bytesBits pub)) := by
  rw [plainTailC_eq (List.replicate 64 0) (by simp), sha256Words_half sec hs pub hp _ (by simp)]

example : plainTailC (firstState (List.replicate 512 false)) (List.replicate 60 1)
    = .ok (SHA256.sha256Words (List.replicate 512 false ++ bytesBits (List.replicate 60 1))) :=
  C65_sha_digest _ (by rw [List.length_replicate]) _ (by rw [List.length_replicate]; decide)

/-- The TLS PRF on arrays, on a fresh object: the RFC 5246 function of the label and the seed, for every length of them that the
arrays of the caller hold. -/
theorem C65_prf (key : Integer) (hk : key.length < 2 ^ 63) (label seed : List Byte) (labellen seedlen bitlen : Nat)
    (hl : labellen ≤ label.length) (hs : seedlen ≤ seed.length) (hsz : labellen + seedlen < 2 ^ 58) (hb : bitlen < 2 ^ 63)
    (ri ro : Bool) :
    ∃ m r p' m', Hmac.new.init key = .ok m ∧
      optComputeC Prf.new m [] bitlen (given label) labellen (given seed) seedlen ri ro false = .ok (r, p', m') ∧
      r.reverse = HMAC.prf key.reverse (bytesBits (label.take labellen)) (bytesBits (seed.take seedlen)) bitlen := by
  obtain ⟨m, e, inv, hiv⟩ := init_step Hmac.new (by rfl) key hk
  have h1 : (label.take labellen).length = labellen := by rw [List.length_take]; omega
  have h2 : (seed.take seedlen).length = seedlen := by rw [List.length_take]; omega
  have hiv' : m.sha.ivIn.length = 0 := by rw [hiv]; rfl
  obtain ⟨r, p', m', e', _, _, hr, _⟩ := optCompute_step inv Prf.new (fun _ => List.replicate 64 0) (fun _ => by simp) []
    (label.take labellen) (seed.take seedlen) bitlen ri ro (by omega) (by simp) (by rw [hiv']; omega)
  refine ⟨m, r, p', m', e, ?_, by simpa using hr⟩
  unfold optComputeC
  rw [C65_concat label seed labellen seedlen hl hs, okBind]
  rw [optPhashC_eq (fun _ => List.replicate 64 0) (fun _ => by simp) Prf.new m [] bitlen _ _ (by rw [List.length_append]; omega)
    ri ro false (fun w hw => absurd hw (by simp [Prf.new]))]
  rw [List.take_of_length_le (by rw [List.length_append]; omega)]
  exact e'

/-- The master secret call: 384 bits, twice the hash length and a half. -/
example : ∃ m r p' m', Hmac.new.init (ofNat 256 12345) = .ok m ∧
    optComputeC Prf.new m [] 384 (given masterKeyLabel) 13 (given (List.replicate 64 9)) 64 true true false = .ok (r, p', m') ∧
    r.reverse = HMAC.prf (ofNat 256 12345).reverse (bytesBits (masterKeyLabel.take 13)) (bytesBits ((List.replicate 64 9).take 64)) 384 :=
  C65_prf _ (by simp) _ _ _ _ _ (by decide) (by decide) (by decide) (by decide) _ _

/-- The same on any object whose opened values have eight words, in the proof phase as well: the arrays, reused from round to
round, do not change the result. -/
theorem C65_prf_any (g : Nat → List Byte) (hg : ∀ i, (g i).length = 64) (p : Prf) (m : Hmac) (res : Integer) (bitlen : Nat)
    (label seed : List Byte) (labellen seedlen : Nat) (hl : labellen ≤ label.length) (hs : seedlen ≤ seed.length)
    (ri ro zk : Bool) (hp : ∀ w ∈ p.pubM, w.length = 8) :
    optComputeC p m res bitlen (given label) labellen (given seed) seedlen ri ro zk
      = p.optCompute m g res bitlen (label.take labellen) (seed.take seedlen) ri ro zk := by
  have h1 : (label.take labellen).length = labellen := by rw [List.length_take]; omega
  have h2 : (seed.take seedlen).length = seedlen := by rw [List.length_take]; omega
  unfold optComputeC Prf.optCompute
  rw [C65_concat label seed labellen seedlen hl hs, okBind]
  rw [optPhashC_eq g hg p m res bitlen _ _ (by rw [List.length_append]; omega) ri ro zk hp]
  rw [List.take_of_length_le (by rw [List.length_append]; omega)]

example : (∀ w ∈ (⟨0, [], [List.replicate 8 5#32], 0⟩ : Prf).pubM, w.length = 8) := by decide

/-- The offline HMAC reads words that were never written: `memset` is given the number of words, not of bytes. -/
theorem C65_offline_uninitialised : offDigC = .error (.ub "read of an uninitialised cell") := by decide +kernel

/-- The choice bits of the OLE: every cell of the array of `n * w` is written, cell `i * w + j` with bit `j` of input `i`. -/
theorem C65_grid {α : Type} (n w : Nat) (f : Nat → Nat → α) :
    grid n w f = .ok (given ((List.range (n * w)).map fun k => f (k / w) (k % w))) := by
  have app : ∀ k, (List.range (k + 1)).map (fun k => f (k / w) (k % w))
      = (List.range k).map (fun k => f (k / w) (k % w)) ++ [f (k / w) (k % w)] := fun k => by
    rw [List.range_succ, List.map_append]; rfl
  have inner : ∀ i, i < n → ∀ m, m ≤ w → (List.range m).foldlM (fun b j => store b (i * w + j) [f i j])
      (given ((List.range (i * w)).map fun k => f (k / w) (k % w)) ++ alloc (n * w - i * w)) =
      (.ok (given ((List.range (i * w + m)).map fun k => f (k / w) (k % w)) ++ alloc (n * w - (i * w + m))) : Res (Buf α)) := by
    intro i hi m
    induction m with
    | zero => intro _; rfl
    | succ m ih =>
      intro hm
      have hw : 0 < w := by omega
      have hle : i * w + w ≤ n * w := by
        rw [← Nat.succ_mul]; exact Nat.mul_le_mul_right w hi
      rw [List.range_succ, List.foldlM_append, ih (by omega), okBind, List.foldlM_cons]
      rw [store_front _ _ _ _ (by simp) (by simp; omega)]
      have e1 : (i * w + m) / w = i := by
        rw [Nat.mul_comm, Nat.mul_add_div hw, Nat.div_eq_of_lt (by omega), Nat.add_zero]
      have e2 : (i * w + m) % w = m := by
        rw [Nat.mul_comm, Nat.mul_add_mod, Nat.mod_eq_of_lt (by omega)]
      have := app (i * w + m)
      rw [e1, e2] at this
      rw [okBind, ← this, List.length_singleton, Nat.sub_sub]; rfl
  have outer : ∀ m, m ≤ n → (List.range m).foldlM (fun b i => (List.range w).foldlM (fun b j => store b (i * w + j) [f i j]) b)
      (alloc (n * w)) =
      (.ok (given ((List.range (m * w)).map fun k => f (k / w) (k % w)) ++ alloc (n * w - m * w)) : Res (Buf α)) := by
    intro m
    induction m with
    | zero => intro _; simp [given]; rfl
    | succ m ih =>
      intro hm
      rw [List.range_succ, List.foldlM_append, ih (by omega), okBind, List.foldlM_cons]
      rw [inner m (by omega) w (Nat.le_refl _), okBind, ← Nat.succ_mul]; rfl
  unfold grid
  rw [outer n (Nat.le_refl _), Nat.sub_self]
  simp [alloc]

example : grid 2 3 (fun i j => 10 * i + j) = .ok (given [0, 1, 2, 10, 11, 12]) := C65_grid 2 3 _

end Verif.Props
