import Verif.Lemmas.Leaf
import Verif.Lemmas.Vocabulary
/-!
# The decoder with other decoders for the simple types

`decWith D` is `decTy` with the decoders of INTEGER, ENUMERATED, BIT STRING, OCTET STRING and the count of a
SEQUENCE OF taken from `D`.  With the functions of the code it is `decTy` (`decWith_code`); with repaired
ones it shows how much of a value is still in what the encoder wrote (`Lemmas/Repaired.lean`).
-/
namespace Verif

/-- A decoder for every simple type, and for the number of elements of a SEQUENCE OF. -/
structure LeafDecoders where
  int : Constr → Dec Val
  enum : Bool → List (String × Int) → List (String × Int) → Dec Val
  bits : SizeC → Dec Val
  octets : SizeC → Dec Val
  count : SizeC → Dec Int

/-- What the encoder wrote for a value of `L` is read back, wherever it starts. -/
structure LeafDecoders.Reads (D : LeafDecoders) (L : Spec.Leaves) : Prop where
  int : ∀ {c z fs}, L.int c z = true → encodeInteger c z = .ok fs →
    ∀ pos, Verif.Reads (D.int c) pos (emit pos fs) (.int z)
  enum : ∀ {ext root add z fs}, L.enum ext root add z = true → encodeEnumerated ext root add z = .ok fs →
    ∀ pos, Verif.Reads (D.enum ext root add) pos (emit pos fs) (.enum z)
  bits : ∀ {c b fs}, L.bits c b = true → encodeBitstring c b = .ok fs →
    ∀ pos, Verif.Reads (D.bits c) pos (emit pos fs) (.bits b)
  octets : ∀ {c o fs}, L.octets c o = true → encodeOctetstring c o = .ok fs →
    ∀ pos, Verif.Reads (D.octets c) pos (emit pos fs) (.octets o)
  count : ∀ {c n fl fs}, L.count c n = true → encodeSequenceOf c n fl = .ok fs →
    ∃ pre, fs = pre ++ fl ∧ ∀ pos, Verif.Reads (D.count c) pos (emit pos pre) (n : Int)

mutual
/-- `decTy` (Decoder.lean) with the leaf decoders `D`. -/
def decWith (D : LeafDecoders) : Ty → Dec Val
  | .boolean => decodeBoolean
  | .integer c => D.int c
  | .enumerated ext root add => D.enum ext root add
  | .bitString c => D.bits c
  | .octetString c => D.octets c
  | .seqOf c t => do
    let n ← D.count c
    let vs ← repeatDec n.toNat (decWith D t)
    return .seqOf vs
  | .choice ext r a g => do
    if !ext then
      if r.length = 1 then
        let v ← decAltWith D r 0
        return .choice 0 v
      else
        let i ← decodeConstrainedFromFieldList (some 0) (some ((r.length : Int) - 1))
        let v ← decAltWith D r i.toNat
        return .choice i.toNat v
    else
      let e ← next ⟨0, 1⟩ false
      if e = 0 then
        if r.length = 1 then
          let v ← decAltWith D r 0
          return .choice 0 v
        else
          let i ← decodeConstrainedFromFieldList (some 0) (some ((r.length : Int) - 1))
          let v ← decAltWith D r i.toNat
          return .choice i.toNat v
      else
        let i ← decodeNormallySmall 0
        if a.length = 0 ∧ g.length = 0 then raise .notImplemented
        else
          let i := i.toNat
          let v ← decodeOpenTypeField (if i < a.length then decAltWith D a i else decAltGWith D g (i - a.length))
          return .choice (r.length + i) v
  | .sequence ext r a g => do
    let e ← if ext then next ⟨0, 1⟩ false else pure 0
    let opt ← decodeOptionalBits r.optionalCount
    let rootVals ← decRootWith D r opt
    if e ≠ 0 then
      let bits ← decodeExtensionBits (a.length + g.length)
      let addVals ← decAddsWith D a (bits.take a.length)
      let groupVals ← decGroupsWith D g (bits.drop a.length)
      return .seq (rootVals ++ addVals ++ groupVals)
    else
      return .seq (rootVals ++ List.replicate (a.length + g.size) none)
/-- The selected alternative; an index beyond the list raises `IndexError`. -/
def decAltWith (D : LeafDecoders) : Fields → Nat → Dec Val
  | .nil, _ => raise .indexError
  | .cons _ _ t _, 0 => decWith D t
  | .cons _ _ _ r, p + 1 => decAltWith D r p
def decAltGWith (D : LeafDecoders) : Groups → Nat → Dec Val
  | .nil, _ => raise .indexError
  | .cons f g, p => if p < f.length then decAltWith D f p else decAltGWith D g (p - f.length)
/-- The root component loop. -/
def decRootWith (D : LeafDecoders) : Fields → Bits → Dec (List (Option Val))
  | .nil, _ => return []
  | .cons _ k t r, opt => do
    match k with
    | .mandatory =>
      let v ← decWith D t
      let vs ← decRootWith D r opt
      return some v :: vs
    | _ =>
      match opt with
      | [] => raise .indexError
      | b :: opt' =>
        if b then
          let v ← decWith D t
          let vs ← decRootWith D r opt'
          return some v :: vs
        else
          let vs ← decRootWith D r opt'
          return none :: vs
/-- The extension addition loop (`zip` stops at the shorter list). -/
def decAddsWith (D : LeafDecoders) : Fields → Bits → Dec (List (Option Val))
  | .nil, _ => return []
  | .cons _ _ t r, bits => do
    match bits with
    | [] =>
      let vs ← decAddsWith D r []
      return none :: vs
    | b :: bits' =>
      if b then
        let v ← decodeOpenTypeField (decWith D t)
        let vs ← decAddsWith D r bits'
        return some v :: vs
      else
        let vs ← decAddsWith D r bits'
        return none :: vs
/-- The extension addition group loop; a group is decoded as a SEQUENCE without
extension marker. -/
def decGroupsWith (D : LeafDecoders) : Groups → Bits → Dec (List (Option Val))
  | .nil, _ => return []
  | .cons f g, bits => do
    match bits with
    | [] =>
      let vs ← decGroupsWith D g []
      return List.replicate f.length none ++ vs
    | b :: bits' =>
      if b then
        let cs ← decodeOpenTypeField (do
          let opt ← decodeOptionalBits f.optionalCount
          decRootWith D f opt)
        let vs ← decGroupsWith D g bits'
        return cs ++ vs
      else
        let vs ← decGroupsWith D g bits'
        return List.replicate f.length none ++ vs
end

/-- The decoders of the code. -/
def codeDecoders : LeafDecoders :=
  ⟨decodeInteger, decodeEnumerated, decodeBitstring, decodeOctetstring, decodeSequenceOfCount⟩

mutual
theorem decWith_code : ∀ t : Ty, decWith codeDecoders t = decTy t
  | .boolean => rfl
  | .integer _ => rfl
  | .enumerated _ _ _ => rfl
  | .bitString _ => rfl
  | .octetString _ => rfl
  | .seqOf c t => by simp only [decWith, decTy, decWith_code t]; rfl
  | .choice ext r a g => by simp only [decWith, decTy, decAltWith_code, decAltGWith_code]
  | .sequence ext r a g => by simp only [decWith, decTy, decRootWith_code, decAddsWith_code, decGroupsWith_code]
theorem decAltWith_code : ∀ (r : Fields) (p : Nat), decAltWith codeDecoders r p = decAlt r p
  | .nil, _ => rfl
  | .cons _ _ t _, 0 => decWith_code t
  | .cons _ _ _ r, p + 1 => decAltWith_code r p
theorem decAltGWith_code : ∀ (g : Groups) (p : Nat), decAltGWith codeDecoders g p = decAltG g p
  | .nil, _ => rfl
  | .cons f g, p => by simp only [decAltGWith, decAltG, decAltWith_code f, decAltGWith_code g]
theorem decRootWith_code : ∀ (r : Fields) (opt : Bits), decRootWith codeDecoders r opt = decRoot r opt
  | .nil, _ => rfl
  | .cons _ k t r, opt => by simp only [decRootWith, decRoot, decWith_code t, decRootWith_code r]; rfl
theorem decAddsWith_code : ∀ (r : Fields) (bits : Bits), decAddsWith codeDecoders r bits = decAdds r bits
  | .nil, _ => rfl
  | .cons _ _ t r, bits => by simp only [decAddsWith, decAdds, decWith_code t, decAddsWith_code r]; rfl
theorem decGroupsWith_code : ∀ (g : Groups) (bits : Bits), decGroupsWith codeDecoders g bits = decGroups g bits
  | .nil, _ => rfl
  | .cons f g, bits => by simp only [decGroupsWith, decGroups, decRootWith_code f, decGroupsWith_code g]; rfl
end

/-- The decoders of the code read the values of `Spec.faithful`. -/
theorem code_reads : codeDecoders.Reads Spec.faithful where
  int := fun hs h => by
    obtain ⟨_, e1, e2⟩ := integer_rt hs
    rw [e1] at h; cases h; exact e2
  enum := fun hs h => by
    obtain ⟨_, e1, e2⟩ := enumerated_rt hs
    rw [e1] at h; cases h; exact e2
  bits := fun hs h => by
    obtain ⟨_, e1, e2⟩ := bitstring_rt hs
    rw [e1] at h; cases h; exact e2
  octets := fun hs h => by
    obtain ⟨_, e1, e2⟩ := octetstring_rt hs
    rw [e1] at h; cases h; exact e2
  count := fun hs h => by
    obtain ⟨pre, e1, e2⟩ := seqOfCount_rt hs
    rw [e1] at h; cases h; exact ⟨pre, rfl, e2⟩

end Verif
