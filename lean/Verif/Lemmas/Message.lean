import Verif.Lemmas.Canonical
import Verif.Lemmas.Total
/-!
# From field lists to messages
-/
namespace Verif

theorem readerAt_iff {p : PerBytes} {n : Nat} {rest : Bits} : Spec.ReaderAt p n rest ↔ At p n rest := by
  constructor
  · intro h
    exact ⟨by rw [h.bits]; omega, by rw [h.octets, h.bits]; omega, h.rest⟩
  · intro h
    have h1 := h.bits_lt
    have h2 := h.pos_eq
    exact ⟨by omega, by omega, h.rem_eq⟩

/-- Carrying, from the statement in terms of emitted bits. -/
theorem carries_of_reads {t : Ty} {v w : Val} {fs : List BitField} (he : encTy t v = .ok fs)
    (h : ∀ pos, Reads (decTy t) pos (emit pos fs) w) : Spec.Carries t v w := by
  refine ⟨fs, he, fun before rest p hp => ?_⟩
  rw [foldl_appendField] at hp ⊢
  rw [List.drop_left, readerAt_iff] at hp
  obtain ⟨p', e, hat⟩ := h before.length p rest hp
  exact ⟨p', e, by rw [readerAt_iff, List.length_append]; exact hat⟩

theorem equalsEmpty_eq : ∀ v : Val, equalsEmpty v = Spec.nothing v
  | .bits [] => rfl
  | .bits (_ :: _) => rfl
  | .choice _ v => by simp only [equalsEmpty, Spec.nothing]; exact equalsEmpty_eq v
  | .bool _ | .int _ | .enum _ | .octets _ | .seqOf _ | .seq _ => rfl

/-- What is returned, and what is not. -/
theorem decode_eq {t : Ty} {bs : List UInt8} (hne : bs ≠ []) :
    decode t bs = (decTy t ⟨Offset.init 0 0, bytesToBits bs⟩ >>= fun r => if Spec.returnable r.1 then pure r.1 else .error .typeError) := by
  unfold decode
  rw [PerBytes_init_hexlify hne]
  show (decTy t _ >>= _) = _
  congr 1
  funext r
  cases h : r.1 with
  | choice i v => simp only [Spec.returnable, equalsEmpty_eq]; by_cases hn : Spec.nothing v = true <;> simp [hn]
  | _ => rfl

theorem decode_ok {t : Ty} {bs : List UInt8} {w : Val} (h : decode t bs = .ok w) :
    ∃ p', decTy t ⟨Offset.init 0 0, bytesToBits bs⟩ = .ok (w, p') ∧ Spec.returnable w = true ∧ bs ≠ [] := by
  by_cases hb : bs = []
  · subst hb; cases h
  rw [decode_eq hb] at h
  obtain ⟨r, h1, h2⟩ := Except.bind_eq_ok h
  split at h2
  · rename_i hr
    cases h2
    exact ⟨r.2, h1, hr, hb⟩
  · cases h2

theorem decode_ok_of {t : Ty} {bs : List UInt8} {w : Val} {p' : PerBytes} (hb : bs ≠ []) (hr : Spec.returnable w = true)
    (h : decTy t ⟨Offset.init 0 0, bytesToBits bs⟩ = .ok (w, p')) : decode t bs = .ok w := by
  rw [decode_eq hb, h]
  show (if Spec.returnable w then pure w else .error .typeError : Except Err Val) = _
  rw [hr]; rfl

mutual
theorem nothing_received : ∀ (t : Ty) (v : Val), Spec.nothing (Spec.received t v) = Spec.nothing v
  | .choice _ r a g, .choice pos v => by
    simp only [Spec.received, Spec.nothing]
    split
    · exact nothing_alt r pos v
    · split
      · exact nothing_alt a _ v
      · exact nothing_altG g _ v
  | .seqOf _ _, v => by cases v <;> simp [Spec.received, Spec.nothing]
  | .sequence _ _ _ _, v => by cases v <;> simp [Spec.received, Spec.nothing]
  | .choice _ _ _ _, .bool _ | .choice _ _ _ _, .int _ | .choice _ _ _ _, .enum _ | .choice _ _ _ _, .bits _
  | .choice _ _ _ _, .octets _ | .choice _ _ _ _, .seqOf _ | .choice _ _ _ _, .seq _ => by simp [Spec.received]
  | .boolean, _ | .integer _, _ | .enumerated _ _ _, _ | .bitString _, _ | .octetString _, _ => by simp [Spec.received]
theorem nothing_alt : ∀ (r : Fields) (i : Nat) (v : Val), Spec.nothing (Spec.receivedAlt r i v) = Spec.nothing v
  | .nil, _, _ => by simp [Spec.receivedAlt]
  | .cons _ _ t _, 0, v => by simp only [Spec.receivedAlt]; exact nothing_received t v
  | .cons _ _ _ r, i + 1, v => by simp only [Spec.receivedAlt]; exact nothing_alt r i v
theorem nothing_altG : ∀ (g : Groups) (i : Nat) (v : Val), Spec.nothing (Spec.receivedAltG g i v) = Spec.nothing v
  | .nil, _, _ => by simp [Spec.receivedAltG]
  | .cons f g, i, v => by
    simp only [Spec.receivedAltG]
    split
    · exact nothing_alt f i v
    · exact nothing_altG g _ v
end

theorem returnable_received (t : Ty) (v : Val) : Spec.returnable (Spec.received t v) = Spec.returnable v := by
  have h := nothing_received t v
  cases t <;> cases v <;> simp_all [Spec.received, Spec.returnable, Spec.nothing]

theorem decode_of_reads {t : Ty} {v w : Val} {bs : List UInt8} (hb : encode t v = .ok bs)
    (hr : Spec.returnable w = true) (h : ∀ fs, encTy t v = .ok fs → Reads (decTy t) 0 (emit 0 fs) w) (extra : List UInt8) :
    decode t (bs ++ extra) = .ok w := by
  obtain ⟨fs, e1, e2⟩ := (encode_eq t v bs).1 hb
  have hne : bs ≠ [] := by
    rintro rfl
    have := produceCompleteEncoding_ne_nil fs
    rw [← e2] at this; exact this rfl
  obtain ⟨p', e, _⟩ := h fs e1 _ _ (At.init (emit 0 fs ++ _))
  refine decode_ok_of (p' := p') (by simp [hne]) hr ?_
  rw [bytesToBits_append, e2, produceCompleteEncoding_eq, List.append_assoc]
  exact e

theorem encode_of_encTy {t : Ty} {v : Val} {fs : List BitField} (h : encTy t v = .ok fs) :
    ∃ bs, encode t v = .ok bs := by
  obtain ⟨bs, hb⟩ := exists_bytes _ (produceCompleteEncoding_length fs).1
  exact ⟨bs, (encode_eq t v bs).2 ⟨fs, h, hb⟩⟩

theorem roundTrips_of_reads {t : Ty} {v w : Val} {fs : List BitField} (he : encTy t v = .ok fs)
    (hr : Spec.returnable w = true) (h : ∀ pos, Reads (decTy t) pos (emit pos fs) w) : Spec.RoundTrips t v w := by
  obtain ⟨bs, hb⟩ := encode_of_encTy he
  refine ⟨bs, hb, decode_of_reads hb hr ?_⟩
  intro fs' h'
  rw [he] at h'; cases h'
  exact h 0

/-- Safe and sendable values arrive as `received` says. -/
theorem safe_carries' {t : Ty} {v : Val} (h : Spec.safe t v = true) (hs : Spec.sendable t v = true) :
    Spec.Carries t v (Spec.received t v) ∧ (Spec.returnable v = true → Spec.RoundTrips t v (Spec.received t v)) := by
  obtain ⟨fs, e⟩ := ok_ty t v h hs
  exact ⟨carries_of_reads e (rt_ty t v fs e h),
    fun hr => roundTrips_of_reads e (by rw [returnable_received, hr]) (rt_ty t v fs e h)⟩

theorem safe_carries {t : Ty} {v : Val} (h : Spec.safe t v = true) (hs : Spec.sendable t v = true)
    (hr : Spec.returnable v = true := by rfl) :
    Spec.Carries t v (Spec.received t v) ∧ Spec.RoundTrips t v (Spec.received t v) :=
  ⟨(safe_carries' h hs).1, (safe_carries' h hs).2 hr⟩

end Verif
