import Verif.Model.Basic

/-!
# `LabelUtils` and `TypeUtils` (src/utils.cpp)
-/

namespace Groot

/-- Loop body of `LabelUtils::StringToLabels` (src/utils.cpp:64-75).
State: tokens pushed so far, and the string `previous`. -/
def scanStep (st : List Str × Str) (c : Char) : List Str × Str :=
  if c = '.' ∧ st.2.length > 0 then
    if st.2.getLast? = some '\\' then
      (st.1, st.2 ++ [c])
    else
      (st.1 ++ [st.2], [])
  else
    (st.1, st.2 ++ [c])

/-- `LabelUtils::StringToLabels` (src/utils.cpp:52-78). -/
def stringToLabels (domainName : Str) : Name :=
  if domainName.length = 0 then []
  else
    let d := if domainName.getLast? ≠ some '.' then domainName ++ ['.'] else domainName
    (d.foldl scanStep ([], [])).1.reverse

/-- `LabelUtils::LabelsToString(vector<NodeLabel>)` (src/utils.cpp:3-14). -/
def labelsToString (n : Name) : Str :=
  if n.length = 0 then ['.']
  else n.foldl (fun domain l => l ++ ['.'] ++ domain) []

/-- `LabelUtils::LabelsToString(vector<vector<NodeLabel>>)` (src/utils.cpp:16-25).
On an empty vector the two `pop_back`s remove `[` and then hit an empty string (undefined). -/
def labelListToString (ds : List Name) : Res Str :=
  let r := ds.foldl (fun (acc : Str) d => acc ++ labelsToString d ++ [',', ' ']) ['[']
  if r.length < 2 then .ub else .ok (r.dropLast.dropLast ++ [']'])

/-- `kMaxLabelLength` (src/node-label.h:30). -/
def kMaxLabelLength : Nat := 63

/-- `kMaxDomainLength` (src/node-label.h:31). -/
def kMaxDomainLength : Nat := 253

/-- The loop and final test of `LabelUtils::LengthCheck` (src/utils.cpp:29-49); `length` is the
running total.  The logging for `level == 2` is not modelled. -/
def lengthCheckLoop (length : Nat) : Name → Bool × Str
  | [] => if length > kMaxDomainLength then (false, []) else (true, [])
  | l :: ls =>
    if l.length > kMaxLabelLength then (false, l)
    else lengthCheckLoop (length + (l.length + 1)) ls

/-- `LabelUtils::LengthCheck` (src/utils.cpp:27-50): validity and violating label. -/
def lengthCheck (n : Name) : Bool × Str := lengthCheckLoop 0 n

/-- `LabelUtils::SubDomainCheck(domain, subdomain)` (src/utils.cpp:80-91). -/
def subDomainCheck (domain subdomain : Name) : Bool :=
  if domain.length > subdomain.length then false
  else (List.range domain.length).all (fun i => domain[i]? == subdomain[i]?)

/-- `LabelUtils::SubDomainCheck(allowed_domains, subdomain)` (src/utils.cpp:93-100). -/
def subDomainCheckAny (allowed : List Name) (subdomain : Name) : Bool :=
  allowed.foldl (fun any d => any || subDomainCheck d subdomain) false

/-- `TypeUtils::StringToType` (src/utils.cpp:102-132). -/
def stringToType (s : Str) : RRType :=
  if s = "A".toList then .A
  else if s = "NS".toList then .NS
  else if s = "CNAME".toList then .CNAME
  else if s = "DNAME".toList then .DNAME
  else if s = "SOA".toList then .SOA
  else if s = "PTR".toList then .PTR
  else if s = "MX".toList then .MX
  else if s = "TXT".toList then .TXT
  else if s = "AAAA".toList then .AAAA
  else if s = "SRV".toList then .SRV
  else if s = "RRSIG".toList then .RRSIG
  else if s = "NSEC".toList then .NSEC
  else if s = "SPF".toList then .SPF
  else .N

/-- The table `type_to_string` (src/utils.cpp:134-135). -/
def typeToStringTable : List Str :=
  ["A", "NS", "CNAME", "DNAME", "SOA", "PTR", "MX", "TXT", "AAAA", "SRV", "RRSIG", "NSEC", "SPF"].map
    String.toList

/-- `TypeUtils::TypeToString` (src/utils.cpp:137-140): reading past the table is undefined. -/
def typeToString (t : RRType) : Res Str :=
  match typeToStringTable[t.idx]? with
  | some s => .ok s
  | none => .ub

/-- `std::string` order (lexicographic on bytes), as used by `std::set<string>`. -/
def strLt : Str → Str → Bool
  | [], [] => false
  | [], _ :: _ => true
  | _ :: _, [] => false
  | a :: as, b :: bs => if a.toNat < b.toNat then true else if b.toNat < a.toNat then false else strLt as bs

/-- `std::set<string>::insert` on the sorted list of members. -/
def setInsert (x : Str) : List Str → List Str
  | [] => [x]
  | y :: ys => if strLt x y then x :: y :: ys else if strLt y x then y :: setInsert x ys else y :: ys

/-- The set built by the first loop of `TypeUtils::TypesToString` (src/utils.cpp:144-150). -/
def typeNameSet (ts : TypeSet) : List Str :=
  (List.range 13).foldl
    (fun acc i => if ts.getLsbD i then setInsert (typeToStringTable.getD i []) acc else acc) []

/-- `TypeUtils::TypesToString` (src/utils.cpp:142-159). -/
def typesToString (ts : TypeSet) : Str :=
  (typeNameSet ts).foldl (fun acc r => (if acc.length > 0 then acc ++ [' '] else acc) ++ r) []

end Groot
