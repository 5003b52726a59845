import Verif.SpecNames
import Verif.Encoder
import Verif.Decoder
import Verif.Lemmas.Named
/-!
Names are not part of the encoding: the types without names are encoded and decoded in the same way.
-/
namespace Verif
open Spec (anonymous anonymousAll anonymousAllG)

theorem anon_length : ∀ f : Fields, (anonymousAll f).length = f.length
  | .nil => rfl
  | .cons _ _ _ r => by rw [anonymousAll, Fields.length, Fields.length, anon_length r]
theorem anon_size : ∀ g : Groups, (anonymousAllG g).size = g.size
  | .nil => rfl
  | .cons f g => by rw [anonymousAllG, Groups.size, Groups.size, anon_length f, anon_size g]
theorem anon_lengthG : ∀ g : Groups, (anonymousAllG g).length = g.length
  | .nil => rfl
  | .cons f g => by rw [anonymousAllG, Groups.length, Groups.length, anon_lengthG g]
theorem anon_optional : ∀ f : Fields, (anonymousAll f).optionalCount = f.optionalCount
  | .nil => rfl
  | .cons _ k _ r => by
    rw [anonymousAll, Fields.optionalCount, Fields.optionalCount, anon_optional r]

mutual
theorem isValue_anon : ∀ t : Ty, isValue (anonymous t) = isValue t
  | .boolean | .integer _ | .bitString _ | .octetString _ => by rw [anonymous] <;> nofun
  | .enumerated _ _ _ => by funext v; rw [anonymous, isValue, isValue]
  | .seqOf c t => by
    funext v
    rw [anonymous]
    cases v with
    | seqOf vs => rw [isValue, isValue, isValue_anon t]
    | _ => simp [isValue]
  | .choice ext r a g => by
    funext v
    rw [anonymous]
    cases v with
    | choice pos v => rw [isValue, isValue, isValueAlt_anon r, isValueAlt_anon a, isValueAltG_anon g, anon_length, anon_length]
    | _ => simp [isValue]
  | .sequence ext r a g => by
    funext v
    rw [anonymous]
    cases v with
    | seq cs =>
      rw [isValue, isValue, mandatory_anon r, mandatory_anon a, mandatoryG_anon g, any_anon r, any_anon a, anyG_anon g,
        anon_length, anon_length]
    | _ => simp [isValue]
theorem isValueAlt_anon : ∀ f : Fields, isValueAlt (anonymousAll f) = isValueAlt f
  | .nil => rfl
  | .cons _ _ t r => by
    funext i v
    rw [anonymousAll]
    cases i with
    | zero => rw [isValueAlt, isValueAlt, isValue_anon t]
    | succ i => rw [isValueAlt, isValueAlt, isValueAlt_anon r]
theorem isValueAltG_anon : ∀ g : Groups, isValueAltG (anonymousAllG g) = isValueAltG g
  | .nil => rfl
  | .cons f g => by
    funext i v
    rw [anonymousAllG, isValueAltG, isValueAltG, isValueAlt_anon f, isValueAltG_anon g, anon_length]
theorem mandatory_anon : ∀ f : Fields, mandatoryAll (anonymousAll f) = mandatoryAll f
  | .nil => rfl
  | .cons _ _ t r => by
    funext cs
    rw [anonymousAll]
    unfold mandatoryAll
    rw [isValue_anon t, mandatory_anon r]
theorem mandatoryG_anon : ∀ g : Groups, mandatoryAllG (anonymousAllG g) = mandatoryAllG g
  | .nil => rfl
  | .cons f g => by
    funext cs
    rw [anonymousAllG, mandatoryAllG, mandatoryAllG, mandatory_anon f, mandatoryG_anon g, anon_length]
theorem any_anon : ∀ f : Fields, anyValue (anonymousAll f) = anyValue f
  | .nil => rfl
  | .cons _ _ t r => by
    funext cs
    rw [anonymousAll, anyValue, anyValue, isValue_anon t, any_anon r]
theorem anyG_anon : ∀ g : Groups, anyValueG (anonymousAllG g) = anyValueG g
  | .nil => rfl
  | .cons f g => by
    funext cs
    rw [anonymousAllG, anyValueG, anyValueG, any_anon f, anyG_anon g, anon_length]
end

theorem present_anon (t : Ty) : present (anonymous t) = present t := by
  funext c; cases c <;> simp [present, isValue_anon]
theorem isValueOpt_anon (t : Ty) : isValueOpt (anonymous t) = isValueOpt t := by
  funext c; cases c <;> simp [isValueOpt, isValue_anon]
theorem emptyVal_anon (t : Ty) : emptyVal (anonymous t) = emptyVal t := by
  cases t <;> simp [anonymous, emptyVal, anon_length, anon_size]

theorem root_anon (enc : Val → Except Err (List BitField)) (k : Kind) (t : Ty) (c : Option Val) :
    rootComponent enc k (anonymous t) c = rootComponent enc k t c := by
  unfold rootComponent
  rw [present_anon, emptyVal_anon]
theorem addition_anon (enc : Val → Except Err (List BitField)) (t : Ty) (p : Option Prev) (c : Option Val) :
    additionComponent enc (anonymous t) p c = additionComponent enc t p c := by
  unfold additionComponent
  rw [isValue_anon]
theorem scan_anon : ∀ f : Fields, scanGroup (anonymousAll f) = scanGroup f
  | .nil => rfl
  | .cons _ _ t r => by
    funext cs p
    rw [anonymousAll, scanGroup, scanGroup, isValueOpt_anon, present_anon, scan_anon r]

theorem map_snd (xs : List (String × Int)) : (xs.map fun p => ("", p.2)).map (·.2) = xs.map (·.2) := by
  rw [List.map_map]; rfl

mutual
theorem enc_anon : ∀ t : Ty, encTy (anonymous t) = encTy t
  | .boolean | .integer _ | .bitString _ | .octetString _ => by rw [anonymous] <;> nofun
  | .enumerated _ root add => by
    funext v
    rw [anonymous]
    cases v with
    | enum z =>
      rw [encTy, encTy, encodeEnumerated, encodeEnumerated, map_snd, map_snd, ← List.map_append, List.length_map,
        List.length_map]
    | _ => simp [encTy]
  | .seqOf c t => by
    funext v
    rw [anonymous]
    cases v with
    | seqOf vs => rw [encTy, encTy, enc_anon t]
    | _ => simp [encTy]
  | .choice ext r a g => by
    funext v
    rw [anonymous]
    cases v with
    | choice pos v =>
      rw [encTy, encTy, encAlt_anon r, encAlt_anon a, encAltG_anon g, anon_length, anon_length, anon_lengthG]
    | _ => simp [encTy]
  | .sequence ext r a g => by
    funext v
    rw [anonymous]
    cases v with
    | seq cs =>
      rw [encTy, encTy, encRoot_anon r, encAdds_anon a, encGroups_anon g, anon_length, anon_length, anon_lengthG]
    | _ => simp [encTy]
theorem encAlt_anon : ∀ f : Fields, encAlt (anonymousAll f) = encAlt f
  | .nil => rfl
  | .cons _ _ t r => by
    funext i v
    rw [anonymousAll]
    cases i with
    | zero => rw [encAlt, encAlt, enc_anon t]
    | succ i => rw [encAlt, encAlt, encAlt_anon r]
theorem encAltG_anon : ∀ g : Groups, encAltG (anonymousAllG g) = encAltG g
  | .nil => rfl
  | .cons f g => by
    funext i v
    rw [anonymousAllG, encAltG, encAltG, encAlt_anon f, encAltG_anon g, anon_length]
theorem encRoot_anon : ∀ f : Fields, encRoot (anonymousAll f) = encRoot f
  | .nil => rfl
  | .cons _ _ t r => by
    funext cs
    rw [anonymousAll, encRoot, encRoot, enc_anon t, encRoot_anon r, root_anon]
theorem encAdds_anon : ∀ f : Fields, encAdds (anonymousAll f) = encAdds f
  | .nil => rfl
  | .cons _ _ t r => by
    funext cs p
    rw [anonymousAll, encAdds, encAdds, enc_anon t, encAdds_anon r, addition_anon]
theorem encGroups_anon : ∀ g : Groups, encGroups (anonymousAllG g) = encGroups g
  | .nil => rfl
  | .cons f g => by
    funext cs p
    rw [anonymousAllG, encGroups, encGroups, encRoot_anon f, encGroups_anon g, scan_anon, anon_length]
end

theorem mkEnum_anon (xs : List (String × Int)) : mkEnum (xs.map fun p => ("", p.2)) = mkEnum xs := by
  funext z
  unfold mkEnum
  rw [List.any_map]; rfl

mutual
theorem dec_anon : ∀ t : Ty, decTy (anonymous t) = decTy t
  | .boolean | .integer _ | .bitString _ | .octetString _ => by rw [anonymous] <;> nofun
  | .enumerated _ root add => by
    rw [anonymous, decTy, decTy, decodeEnumerated, decodeEnumerated, ← List.map_append, mkEnum_anon, List.length_map,
      List.length_map]
  | .seqOf c t => by rw [anonymous, decTy, decTy, dec_anon t]
  | .choice ext r a g => by
    rw [anonymous, decTy, decTy, decAlt_anon r, decAlt_anon a, decAltG_anon g, anon_length, anon_length, anon_lengthG]
  | .sequence ext r a g => by
    rw [anonymous, decTy, decTy, decRoot_anon r, decAdds_anon a, decGroups_anon g, anon_length, anon_lengthG, anon_optional,
      anon_size]
theorem decAlt_anon : ∀ f : Fields, decAlt (anonymousAll f) = decAlt f
  | .nil => rfl
  | .cons _ _ t r => by
    funext i
    rw [anonymousAll]
    cases i with
    | zero => rw [decAlt, decAlt, dec_anon t]
    | succ i => rw [decAlt, decAlt, decAlt_anon r]
theorem decAltG_anon : ∀ g : Groups, decAltG (anonymousAllG g) = decAltG g
  | .nil => rfl
  | .cons f g => by
    funext i
    rw [anonymousAllG, decAltG, decAltG, decAlt_anon f, decAltG_anon g, anon_length]
theorem decRoot_anon : ∀ f : Fields, decRoot (anonymousAll f) = decRoot f
  | .nil => rfl
  | .cons _ _ t r => by
    funext o
    rw [anonymousAll]
    unfold decRoot
    rw [dec_anon t, decRoot_anon r]
theorem decAdds_anon : ∀ f : Fields, decAdds (anonymousAll f) = decAdds f
  | .nil => rfl
  | .cons _ _ t r => by
    funext o
    rw [anonymousAll]
    unfold decAdds
    rw [dec_anon t, decAdds_anon r]
theorem decGroups_anon : ∀ g : Groups, decGroups (anonymousAllG g) = decGroups g
  | .nil => rfl
  | .cons f g => by
    funext o
    rw [anonymousAllG]
    unfold decGroups
    rw [decRoot_anon f, decGroups_anon g, anon_length, anon_optional]
end

end Verif
