import Verif.Looking
import Verif.SpecObject
/-!
# Histories in which objects are also looked at
-/
namespace Verif.Spec

/-- Some component is neither OPTIONAL nor has a DEFAULT. -/
def anyMandatory : Fields → Bool
  | .nil => false
  | .cons _ k _ r => (match k with | .mandatory => true | _ => false) || anyMandatory r
def anyMandatoryG : Groups → Bool
  | .nil => false
  | .cons f g => anyMandatory f || anyMandatoryG g

/-- No component has a DEFAULT. -/
def noneDefault : Fields → Bool
  | .nil => true
  | .cons _ k _ r => (match k with | .default _ => false | _ => true) && noneDefault r
def noneDefaultG : Groups → Bool
  | .nil => true
  | .cons f g => noneDefault f && noneDefaultG g

mutual
/-- Every SEQUENCE in the type has a mandatory component and none with a DEFAULT. -/
def sturdy : Ty → Bool
  | .seqOf _ t => sturdy t
  | .choice _ r a g => sturdyFields r && sturdyFields a && sturdyGroups g
  | .sequence _ r a g =>
    (anyMandatory r || anyMandatory a || anyMandatoryG g) && (noneDefault r && noneDefault a && noneDefaultG g) &&
      (sturdyFields r && sturdyFields a && sturdyGroups g)
  | _ => true
def sturdyFields : Fields → Bool
  | .nil => true
  | .cons _ _ t r => sturdy t && sturdyFields r
def sturdyGroups : Groups → Bool
  | .nil => true
  | .cons f g => sturdyFields f && sturdyGroups g
end

mutual
/-- The OPTIONAL components and the extensions of every SEQUENCE are `sturdy`. -/
def quiet : Ty → Bool
  | .seqOf _ t => quiet t
  | .choice _ r a g => quietFields r && quietFields a && quietGroups g
  | .sequence _ r a g => quietRoot r && sturdyFields a && sturdyGroups g
  | _ => true
def quietFields : Fields → Bool
  | .nil => true
  | .cons _ _ t r => quiet t && quietFields r
def quietGroups : Groups → Bool
  | .nil => true
  | .cons f g => quietFields f && quietGroups g
def quietRoot : Fields → Bool
  | .nil => true
  | .cons _ k t r =>
    (match k with
     | .mandatory => quiet t
     | .optional => sturdy t
     | .default _ => true) && quietRoot r
end

mutual
/-- The alternatives of every CHOICE are `sturdy`. -/
def clear : Ty → Bool
  | .seqOf _ t => clear t
  | .choice _ r a g => (sturdyFields r && sturdyFields a && sturdyGroups g) && (clearFields r && clearFields a && clearGroups g)
  | .sequence _ r a g => clearFields r && clearFields a && clearGroups g
  | _ => true
def clearFields : Fields → Bool
  | .nil => true
  | .cons _ _ t r => clear t && clearFields r
def clearGroups : Groups → Bool
  | .nil => true
  | .cons f g => clearFields f && clearGroups g
end

/-- The list of components of a SEQUENCE is missing, empty or has a place for each (what pyasn1 makes of it). -/
def spaced : Ty → Obj → Bool
  | .sequence _ r a g, .seq s => (s.getD []).isEmpty || decide (r.length + a.length + g.size ≤ (s.getD []).length)
  | _, _ => true

/-- Something a program does with an object. -/
inductive Act where
  /-- `encode(obj)` -/
  | encode
  /-- `obj.to_dict()` -/
  | dict
  /-- `obj[name][name]...` -/
  | look (path : List Nat)
  /-- `obj[name] = v` -/
  | assign (i : Nat) (v : Val)

/-- The object afterwards. -/
def Act.left (t : Ty) (o : Obj) : Act → Obj
  | .encode => (encodeObj t o).2
  | .dict => (dictObj t true o).2
  | .look p => Verif.look t p o
  | .assign i v => Verif.assign t i v o

/-- What the calls of `encode` give. -/
def encodings (t : Ty) : List Act → Obj → List (Except Err (List UInt8))
  | [], _ => []
  | .encode :: l, o => (encodeObj t o).1 :: encodings t l (Act.left t o .encode)
  | a :: l, o => encodings t l (a.left t o)

/-- What the calls of `to_dict` give. -/
def dictionaries (t : Ty) : List Act → Obj → List (Except Err (Option Dict))
  | [], _ => []
  | .dict :: l, o => (dictObj t true o).1 :: dictionaries t l (Act.left t o .dict)
  | a :: l, o => dictionaries t l (a.left t o)

/-- What the calls of `encode` would give to a program that does nothing else but assign: each is made with an object that
was only assigned to. -/
def encodingsAlone (t : Ty) : List Act → Obj → List (Except Err (List UInt8))
  | [], _ => []
  | .encode :: l, o => (encodeObj t o).1 :: encodingsAlone t l o
  | .assign i v :: l, o => encodingsAlone t l (Verif.assign t i v o)
  | _ :: l, o => encodingsAlone t l o

/-- The same for `to_dict`. -/
def dictionariesAlone (t : Ty) : List Act → Obj → List (Except Err (Option Dict))
  | [], _ => []
  | .dict :: l, o => (dictObj t true o).1 :: dictionariesAlone t l o
  | .assign i v :: l, o => dictionariesAlone t l (Verif.assign t i v o)
  | _ :: l, o => dictionariesAlone t l o

end Verif.Spec
