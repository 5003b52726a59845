import Verif.Py
/-!
# Lemmas about bit strings, hexadecimal strings and bytes
-/
namespace Verif

theorem natToBits_length (w n : Nat) : (natToBits w n).length = w := by
  induction w with
  | zero => rfl
  | succ w ih => simp [natToBits, ih]

theorem foldl_bits (s : Bits) (a : Nat) :
    s.foldl (fun a b => 2 * a + b.toNat) a = a * 2 ^ s.length + bitsToNat s := by
  unfold bitsToNat
  induction s generalizing a with
  | nil => simp
  | cons b s ih =>
    rw [List.foldl_cons, List.foldl_cons, ih, ih (2 * 0 + b.toNat), List.length_cons, Nat.pow_succ]
    simp only [Nat.mul_zero, Nat.zero_add, Nat.add_mul]
    rw [Nat.mul_comm 2 a, Nat.mul_assoc, Nat.mul_comm 2, Nat.add_assoc]

theorem bitsToNat_nil : bitsToNat [] = 0 := rfl

theorem bitsToNat_cons (b : Bool) (s : Bits) :
    bitsToNat (b :: s) = b.toNat * 2 ^ s.length + bitsToNat s := by
  have := foldl_bits s b.toNat
  simpa [bitsToNat] using this

theorem bitsToNat_append (s t : Bits) :
    bitsToNat (s ++ t) = bitsToNat s * 2 ^ t.length + bitsToNat t := by
  unfold bitsToNat
  rw [List.foldl_append, foldl_bits]
  rfl

theorem bitsToNat_lt (s : Bits) : bitsToNat s < 2 ^ s.length := by
  induction s with
  | nil => simp [bitsToNat]
  | cons b s ih =>
    rw [bitsToNat_cons, List.length_cons, Nat.pow_succ]
    cases b <;> simp <;> omega

theorem bitsToNat_replicate_false (n : Nat) : bitsToNat (List.replicate n false) = 0 := by
  induction n with
  | zero => rfl
  | succ n ih => rw [List.replicate_succ, bitsToNat_cons, ih]; simp

theorem bitsToNat_replicate_true (n : Nat) : bitsToNat (List.replicate n true) = 2 ^ n - 1 := by
  induction n with
  | zero => rfl
  | succ n ih =>
    rw [List.replicate_succ, bitsToNat_cons, ih, List.length_replicate, Nat.pow_succ]
    have : 0 < 2 ^ n := Nat.two_pow_pos n
    simp; omega

theorem bitsToNat_natToBits (w n : Nat) : bitsToNat (natToBits w n) = n % 2 ^ w := by
  induction w with
  | zero => simp [natToBits, bitsToNat, Nat.mod_one]
  | succ w ih =>
    rw [natToBits, bitsToNat_cons, ih, natToBits_length, Nat.testBit_eq_decide_div_mod_eq, Nat.pow_succ,
      Nat.mod_mul, Nat.add_comm, Nat.mul_comm]
    congr 2
    have : n / 2 ^ w % 2 < 2 := Nat.mod_lt _ (by omega)
    by_cases h : n / 2 ^ w % 2 = 1 <;> simp [h] <;> omega

theorem bitsToNat_natToBits_of_lt {w n : Nat} (h : n < 2 ^ w) : bitsToNat (natToBits w n) = n := by
  rw [bitsToNat_natToBits, Nat.mod_eq_of_lt h]

theorem bitsToNat_inj : ∀ {s t : Bits}, s.length = t.length → bitsToNat s = bitsToNat t → s = t
  | [], [], _, _ => rfl
  | a :: s, b :: t, hl, hv => by
    have hl' : s.length = t.length := by simpa using hl
    rw [bitsToNat_cons, bitsToNat_cons, hl'] at hv
    have h1 := bitsToNat_lt s
    have h2 := bitsToNat_lt t
    rw [hl'] at h1
    have hab : a = b := by
      cases a <;> cases b <;> simp at hv ⊢ <;> omega
    subst hab
    rw [bitsToNat_inj hl' (by omega)]

theorem natToBits_bitsToNat (s : Bits) : natToBits s.length (bitsToNat s) = s :=
  bitsToNat_inj (natToBits_length _ _) (bitsToNat_natToBits_of_lt (bitsToNat_lt s))

theorem zfill_length (w : Nat) (s : Bits) : (zfill w s).length = max w s.length := by
  simp [zfill]; omega

theorem bitsToNat_zfill (w : Nat) (s : Bits) : bitsToNat (zfill w s) = bitsToNat s := by
  rw [zfill, bitsToNat_append, bitsToNat_replicate_false]; simp

theorem pyBin_length (n : Nat) : (pyBin n).length = n.log2 + 1 := natToBits_length _ _

theorem bitsToNat_pyBin (n : Nat) : bitsToNat (pyBin n) = n :=
  bitsToNat_natToBits_of_lt Nat.lt_log2_self

theorem pyBin_length_le {w n : Nat} (hw : 0 < w) (h : n < 2 ^ w) : (pyBin n).length ≤ w := by
  rw [pyBin_length]
  by_cases hn : n = 0
  · subst hn; simp; omega
  · have := (Nat.log2_lt hn).2 h; omega

/-- The codec's fixed width rendering is the plain one when the number fits. -/
theorem zfill_pyBin {w n : Nat} (hw : 0 < w) (h : n < 2 ^ w) : zfill w (pyBin n) = natToBits w n := by
  apply bitsToNat_inj
  · rw [zfill_length, natToBits_length]; have := pyBin_length_le hw h; omega
  · rw [bitsToNat_zfill, bitsToNat_pyBin, bitsToNat_natToBits_of_lt h]

theorem zfill_pyBin_bitsToNat {s : Bits} (h : s ≠ []) : zfill s.length (pyBin (bitsToNat s)) = s := by
  rw [zfill_pyBin (List.length_pos_iff.2 h) (bitsToNat_lt s), natToBits_bitsToNat]

theorem pyInt2_of_ne {s : Bits} (h : s ≠ []) : pyInt2 s = .ok (bitsToNat s) := by
  cases s with
  | nil => exact absurd rfl h
  | cons b s => rfl

/-! ## hexadecimal -/

theorem natToHex_length (w n : Nat) : (natToHex w n).length = w := by
  induction w with
  | zero => rfl
  | succ w ih => simp [natToHex, ih]

theorem foldl_hex (s : List Nat) (a : Nat) :
    s.foldl (fun a d => 16 * a + d) a = a * 16 ^ s.length + hexToNat s := by
  unfold hexToNat
  induction s generalizing a with
  | nil => simp
  | cons b s ih =>
    rw [List.foldl_cons, List.foldl_cons, ih, ih (16 * 0 + b), List.length_cons, Nat.pow_succ]
    simp only [Nat.mul_zero, Nat.zero_add, Nat.add_mul]
    rw [Nat.mul_comm 16 a, Nat.mul_assoc, Nat.mul_comm 16, Nat.add_assoc]

theorem hexToNat_cons (b : Nat) (s : List Nat) :
    hexToNat (b :: s) = b * 16 ^ s.length + hexToNat s := by
  have := foldl_hex s b
  simpa [hexToNat] using this

theorem hexToNat_append (s t : List Nat) :
    hexToNat (s ++ t) = hexToNat s * 16 ^ t.length + hexToNat t := by
  unfold hexToNat
  rw [List.foldl_append, foldl_hex]
  rfl

theorem natToHex_digits (w n : Nat) : ∀ d ∈ natToHex w n, d < 16 := by
  induction w with
  | zero => simp [natToHex]
  | succ w ih =>
    intro d hd
    rw [natToHex, List.mem_cons] at hd
    rcases hd with rfl | hd
    · exact Nat.mod_lt _ (by omega)
    · exact ih d hd

theorem hexToNat_lt {s : List Nat} (h : ∀ d ∈ s, d < 16) : hexToNat s < 16 ^ s.length := by
  induction s with
  | nil => simp [hexToNat]
  | cons b s ih =>
    rw [hexToNat_cons, List.length_cons, Nat.pow_succ]
    have h1 := ih (fun d hd => h d (List.mem_cons_of_mem _ hd))
    have h2 : b < 16 := h b List.mem_cons_self
    have : b * 16 ^ s.length ≤ 15 * 16 ^ s.length := Nat.mul_le_mul_right _ (by omega)
    omega

theorem hexToNat_natToHex (w n : Nat) : hexToNat (natToHex w n) = n % 16 ^ w := by
  induction w with
  | zero => simp [natToHex, hexToNat, Nat.mod_one]
  | succ w ih =>
    rw [natToHex, hexToNat_cons, ih, natToHex_length, Nat.pow_succ, Nat.mod_mul, Nat.mul_comm,
      Nat.add_comm]

theorem hexToNat_natToHex_of_lt {w n : Nat} (h : n < 16 ^ w) : hexToNat (natToHex w n) = n := by
  rw [hexToNat_natToHex, Nat.mod_eq_of_lt h]

theorem hexToNat_inj : ∀ {s t : List Nat}, s.length = t.length → (∀ d ∈ s, d < 16) →
    (∀ d ∈ t, d < 16) → hexToNat s = hexToNat t → s = t
  | [], [], _, _, _, _ => rfl
  | a :: s, b :: t, hl, hs, ht, hv => by
    have hl' : s.length = t.length := by simpa using hl
    rw [hexToNat_cons, hexToNat_cons, hl'] at hv
    have hs' : ∀ d ∈ s, d < 16 := fun d hd => hs d (List.mem_cons_of_mem _ hd)
    have ht' : ∀ d ∈ t, d < 16 := fun d hd => ht d (List.mem_cons_of_mem _ hd)
    have h1 := hexToNat_lt hs'
    have h2 := hexToNat_lt ht'
    rw [hl'] at h1
    have hab : a = b := by
      rcases Nat.lt_trichotomy a b with h | h | h
      · have := Nat.mul_le_mul_right (16 ^ t.length) (show a + 1 ≤ b from h)
        rw [Nat.add_mul] at this; omega
      · exact h
      · have := Nat.mul_le_mul_right (16 ^ t.length) (show b + 1 ≤ a from h)
        rw [Nat.add_mul] at this; omega
    subst hab
    rw [hexToNat_inj hl' hs' ht' (by omega)]

theorem pow16 (w : Nat) : 16 ^ w = 2 ^ (4 * w) := by
  rw [Nat.pow_mul]

theorem pyHex_lt (n : Nat) : n < 16 ^ (n.log2 / 4 + 1) := by
  rw [pow16]
  exact Nat.lt_of_lt_of_le Nat.lt_log2_self (Nat.pow_le_pow_right (by omega) (by omega))

theorem hexToNat_pyHex (n : Nat) : hexToNat (pyHex n) = n := hexToNat_natToHex_of_lt (pyHex_lt n)

theorem pyHex_length (n : Nat) : (pyHex n).length = n.log2 / 4 + 1 := natToHex_length _ _

theorem pyHex_length_le {w n : Nat} (hw : 0 < w) (h : n < 16 ^ w) : (pyHex n).length ≤ w := by
  rw [pyHex_length]
  by_cases hn : n = 0
  · subst hn; simp; omega
  · rw [pow16] at h
    have := (Nat.log2_lt hn).2 h; omega

theorem hexToNat_replicate_zero (n : Nat) : hexToNat (List.replicate n 0) = 0 := by
  induction n with
  | zero => rfl
  | succ n ih => rw [List.replicate_succ, hexToNat_cons, ih]; simp

theorem zfillHex_pyHex {w n : Nat} (hw : 0 < w) (h : n < 16 ^ w) :
    zfillHex w (pyHex n) = natToHex w n := by
  have hl := pyHex_length_le hw h
  apply hexToNat_inj
  · rw [zfillHex, natToHex_length]; simp; omega
  · intro d hd
    rw [zfillHex, List.mem_append] at hd
    rcases hd with hd | hd
    · rw [List.mem_replicate] at hd; omega
    · exact natToHex_digits _ _ d hd
  · exact natToHex_digits _ _
  · rw [zfillHex, hexToNat_append, hexToNat_replicate_zero, hexToNat_pyHex, hexToNat_natToHex_of_lt h]
    simp

theorem pyInt16_of_ne {s : List Nat} (h : s ≠ []) : pyInt16 s = .ok (hexToNat s) := by
  cases s with
  | nil => exact absurd rfl h
  | cons b s => rfl

/-! ## bytes -/

/-- The bits of a byte string, most significant bit of each octet first. -/
def bytesToBits (bs : List UInt8) : Bits := bs.flatMap fun b => natToBits 8 b.toNat

theorem bytesToBits_nil : bytesToBits [] = [] := rfl

theorem bytesToBits_cons (b : UInt8) (bs : List UInt8) :
    bytesToBits (b :: bs) = natToBits 8 b.toNat ++ bytesToBits bs := rfl

theorem bytesToBits_length (bs : List UInt8) : (bytesToBits bs).length = 8 * bs.length := by
  induction bs with
  | nil => rfl
  | cons b bs ih => rw [bytesToBits_cons, List.length_append, ih, natToBits_length, List.length_cons]; omega

theorem bytesToBits_append (a b : List UInt8) : bytesToBits (a ++ b) = bytesToBits a ++ bytesToBits b := by
  simp [bytesToBits]

theorem bytesToBits_inj : ∀ {a b : List UInt8}, bytesToBits a = bytesToBits b → a = b
  | [], [], _ => rfl
  | [], b :: bs, h => by
    have := congrArg List.length h
    rw [bytesToBits_length, bytesToBits_length] at this; simp at this
  | a :: as, [], h => by
    have := congrArg List.length h
    rw [bytesToBits_length, bytesToBits_length] at this; simp at this
  | a :: as, b :: bs, h => by
    rw [bytesToBits_cons, bytesToBits_cons] at h
    have h' := List.append_inj h (by rw [natToBits_length, natToBits_length])
    have h1 := congrArg bitsToNat h'.1
    rw [bitsToNat_natToBits_of_lt a.toNat_lt, bitsToNat_natToBits_of_lt b.toNat_lt] at h1
    rw [UInt8.toNat_inj.1 h1, bytesToBits_inj h'.2]

theorem hexlify_cons (b : UInt8) (bs : List UInt8) :
    hexlify (b :: bs) = (b.toNat / 16) :: (b.toNat % 16) :: hexlify bs := rfl

theorem hexlify_length (bs : List UInt8) : (hexlify bs).length = 2 * bs.length := by
  induction bs with
  | nil => rfl
  | cons b bs ih => rw [hexlify_cons]; simp [ih]; omega

theorem hexlify_digits (bs : List UInt8) : ∀ d ∈ hexlify bs, d < 16 := by
  induction bs with
  | nil => simp [hexlify]
  | cons b bs ih =>
    rw [hexlify_cons]
    intro d hd
    have := b.toNat_lt
    rcases List.mem_cons.1 hd with rfl | hd
    · omega
    · rcases List.mem_cons.1 hd with rfl | hd
      · omega
      · exact ih d hd

theorem hexToNat_hexlify (bs : List UInt8) : hexToNat (hexlify bs) = bitsToNat (bytesToBits bs) := by
  induction bs with
  | nil => rfl
  | cons b bs ih =>
    rw [hexlify_cons, hexToNat_cons, hexToNat_cons, ih, bytesToBits_cons, bitsToNat_append,
      bitsToNat_natToBits_of_lt b.toNat_lt, List.length_cons, hexlify_length, bytesToBits_length, pow16,
      pow16]
    have e1 : 2 ^ (4 * (2 * bs.length + 1)) = 16 * 2 ^ (8 * bs.length) := by
      rw [show 4 * (2 * bs.length + 1) = 8 * bs.length + 4 by omega, Nat.pow_add]; omega
    have e2 : 2 ^ (4 * (2 * bs.length)) = 2 ^ (8 * bs.length) := by
      rw [show 4 * (2 * bs.length) = 8 * bs.length by omega]
    rw [e1, e2]
    have : b.toNat = 16 * (b.toNat / 16) + b.toNat % 16 := by omega
    calc b.toNat / 16 * (16 * 2 ^ (8 * bs.length)) + (b.toNat % 16 * 2 ^ (8 * bs.length) + bitsToNat (bytesToBits bs))
        = (16 * (b.toNat / 16) + b.toNat % 16) * 2 ^ (8 * bs.length) + bitsToNat (bytesToBits bs) := by
          rw [Nat.add_mul, ← Nat.mul_assoc, Nat.mul_comm (b.toNat / 16) 16, Nat.add_assoc]
      _ = _ := by rw [← this]

/-- `unhex` inverts `hexlify` on digit strings of even length. -/
theorem unhex_spec : ∀ (k : Nat) {h : List Nat}, h.length = 2 * k → (∀ d ∈ h, d < 16) →
    ∃ bs, unhex h = .ok bs ∧ hexlify bs = h
  | 0, h, hl, _ => by
    have : h = [] := List.length_eq_zero_iff.1 (by omega)
    subst this; exact ⟨[], rfl, rfl⟩
  | k + 1, [], hl, _ => by simp at hl
  | k + 1, [_], hl, _ => by simp at hl; omega
  | k + 1, a :: b :: r, hl, hd => by
    obtain ⟨bs, h1, h2⟩ := unhex_spec k (h := r) (by simp at hl; omega)
      (fun d hd' => hd d (List.mem_cons_of_mem _ (List.mem_cons_of_mem _ hd')))
    have ha : a < 16 := hd a List.mem_cons_self
    have hb : b < 16 := hd b (List.mem_cons_of_mem _ List.mem_cons_self)
    refine ⟨UInt8.ofNat (16 * a + b) :: bs, ?_, ?_⟩
    · simp only [unhex, h1]; rfl
    · rw [hexlify_cons, h2]
      have : (UInt8.ofNat (16 * a + b)).toNat = 16 * a + b := by
        rw [UInt8.toNat_ofNat']; omega
      rw [this, show (16 * a + b) / 16 = a by omega, show (16 * a + b) % 16 = b by omega]

theorem fromHexString_spec : ∀ {h : List Nat} {bs : List UInt8}, hexlify bs = h → fromHexString h = bs
  | _, [], h => by subst h; rfl
  | _, b :: bs, h => by
    subst h
    rw [hexlify_cons, fromHexString, fromHexString_spec rfl]
    congr 1
    apply UInt8.toNat_inj.1
    have := b.toNat_lt
    rw [UInt8.toNat_ofNat']; omega

theorem natToHex_bytes (bs : List UInt8) :
    natToHex (2 * bs.length) (bitsToNat (bytesToBits bs)) = hexlify bs := by
  apply hexToNat_inj
  · rw [natToHex_length, hexlify_length]
  · exact natToHex_digits _ _
  · exact hexlify_digits _
  · rw [hexToNat_hexlify, hexToNat_natToHex_of_lt]
    rw [pow16, show 4 * (2 * bs.length) = 8 * bs.length by omega, ← bytesToBits_length]
    exact bitsToNat_lt _

/-- `fromHexString(hex(v).zfill(2k))` gives back the `k > 0` octets whose bits were read. -/
theorem fromHexString_zfill {bs : List UInt8} (h : bs ≠ []) :
    fromHexString (zfillHex (bs.length * 2) (pyHex (bitsToNat (bytesToBits bs)))) = bs := by
  have hp := List.length_pos_iff.2 h
  rw [zfillHex_pyHex (by omega), Nat.mul_comm, natToHex_bytes, fromHexString_spec rfl]
  have := bitsToNat_lt (bytesToBits bs)
  rw [bytesToBits_length] at this
  rw [pow16, show 4 * (bs.length * 2) = 8 * bs.length by omega]
  exact this

theorem octetBits_eq (bs : List UInt8) :
    (bs.flatMap fun b => zfill 8 (pyBin b.toNat)) = bytesToBits bs := by
  unfold bytesToBits
  congr 1
  funext b
  exact zfill_pyBin (by omega) b.toNat_lt

/-- Bits whose number is a positive multiple of eight are the bits of some bytes. -/
theorem exists_bytes (s : Bits) (h : s.length % 8 = 0) : ∃ bs, bytesToBits bs = s := by
  obtain ⟨bs, h1, h2⟩ := unhex_spec (s.length / 8) (h := natToHex (2 * (s.length / 8)) (bitsToNat s))
    (natToHex_length _ _) (natToHex_digits _ _)
  refine ⟨bs, ?_⟩
  have hl : bs.length = s.length / 8 := by
    have := congrArg List.length h2
    rw [hexlify_length, natToHex_length] at this; omega
  apply bitsToNat_inj
  · rw [bytesToBits_length, hl]; omega
  · rw [← hexToNat_hexlify, h2, hexToNat_natToHex_of_lt]
    rw [pow16, show 4 * (2 * (s.length / 8)) = s.length by omega]
    exact bitsToNat_lt s

end Verif
