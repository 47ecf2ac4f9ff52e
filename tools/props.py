#!/usr/bin/env python3
"""Writes /verif/properties.jsonl (one JSON object per property)."""
import json
P = []
def p(id, title, statement, quant, why, anchors):
    P.append(dict(id=id, title=title, statement=statement, quantifier=quant, why_tests_cant=why, anchors=anchors))

U = "src/utils.cpp"; Z = "src/zone-graph.cpp"; L = "src/label-graph.cpp"; I = "src/interpretation-graph.cpp"
PR = "src/properties.cpp"; D = "src/driver.cpp"; Q = "src/zone-file-parser.cpp"; R = "src/resource-record.cpp"

# ---- names, types, records
p("C01","Domain names survive print and re-parse",
  "Printing a label vector with LabelUtils::LabelsToString and parsing it back with LabelUtils::StringToLabels yields the same vector, for every vector of labels that StringToLabels can itself produce (non-empty labels, not ending in a backslash, in which every dot after the first character is escaped by a preceding backslash).",
  "all label vectors of any length over any bytes", "labels and names are unbounded; escapes and dots interact", [U+":LabelsToString", U+":StringToLabels"])
p("C02","Parsing a name is total and canonical",
  "For every byte string, StringToLabels returns only legal labels (never an empty one, never one ending in a backslash), parsing the printed form of the result returns the result again, a missing final dot makes no difference, and the root is parsed from both the empty string and '.'.",
  "all byte strings", "infinitely many strings, including ones with runs of dots and backslashes", [U+":StringToLabels"])
p("C03","Subdomain test is exactly the ancestor-or-equal relation",
  "LabelUtils::SubDomainCheck(d, s) is true exactly when s is d or lies below d in the DNS tree; hence it is reflexive, transitive and antisymmetric, and the list form is true exactly when some listed domain is an ancestor-or-self.",
  "all pairs of names, all lists of allowed domains", "quantifies over all names; loop bounds and label order cannot be settled by samples", [U+":SubDomainCheck"])
p("C04","Length check enforces the DNS limits exactly",
  "LabelUtils::LengthCheck accepts a name iff every label has at most 63 bytes and its printed form has at most 253 bytes; when it rejects, it returns the first over-long label, or the empty string if only the total is too long.",
  "all names", "boundary for every combination of label lengths", [U+":LengthCheck", "src/node-label.h:kMaxLabelLength"])
p("C05","Record type names round-trip and unknown names are recognised",
  "StringToType(TypeToString(t)) = t for each of the 13 supported types; every other string maps to the 'unsupported' value; TypesToString of any set of types prints each member exactly once in sorted order.",
  "all strings; all 2^13 type sets", "the input domain of StringToType is all strings", [U+":StringToType", U+":TypesToString", U+":type_to_string"])
p("C06","Record-set comparison computes the multiset difference",
  "RRUtils::CompareRRs(A,B) returns (common, onlyA, onlyB) with A a permutation of common+onlyA, B equal to common+onlyB up to order and record equality, and no record of onlyA equal to one of onlyB; both difference lists are empty iff A and B are the same multiset modulo record equality (so the answer does not depend on record order, and is symmetric).",
  "all pairs of record lists, with repetitions, in any order", "in-place erasure while iterating; all list sizes and orders", [U+":CompareRRs"])
p("C07","Record and query equality are equivalence relations compatible with hashing",
  "ResourceRecord == is an equivalence relation that ignores TTL and class and nothing else; equal records have equal rrHash, so the unordered_map keyed on records is lawful; EC == is an equivalence relation that compares name, types and presence of an exclusion set only.",
  "all records and all queries", "algebraic law over an infinite domain", [R+":operator==", "src/resource-record.h:rrHash", "src/equivalence-class.cpp:operator=="])
# ---- zone graph
p("C08","A zone behaves like the ordered log of its accepted records",
  "After any sequence of AddResourceRecord calls on an empty zone, the records stored for each name are exactly the accepted records (those for which SUCCESS was returned) with that owner name, in order of addition; rejected records change nothing that any later call can observe, and adding at one name never changes the records of another.",
  "all sequences of additions of arbitrary records", "all histories, all sizes (including past the 500-children hash-map switch)", [Z+":AddResourceRecord", Z+":GetAncestor", Z+":AddNodes"])
p("C09","CNAME and DNAME exclusivity hold in every reachable zone",
  "In every zone reachable by AddResourceRecord calls, a name with a CNAME has no other record, no name has two DNAMEs, and no name has two records with the same type, TTL and rdata.",
  "all sequences of additions", "invariant over all histories and orders", [Z+":AddResourceRecord"])
p("C10","AddResourceRecord return codes are exact",
  "AddResourceRecord returns DUPLICATE iff an identical (type, TTL, rdata) record is already stored at the name; otherwise CNAME_MULTIPLE iff a different CNAME is there and a CNAME is added; CNAME_OTHER iff exactly one of the stored/added records is a CNAME; DNAME_MULTIPLE iff a different DNAME is there; SUCCESS otherwise; and it changes the zone only on SUCCESS.",
  "all reachable zones and all records", "depends on the whole history at the name", [Z+":AddResourceRecord", "src/zone-graph.h:RRAddCode"])
p("C11","Zone and label look-ups do not depend on the child hash-map optimisation",
  "For every value of the hash-map threshold (including 0 and 'never'), every sequence of additions yields the same return codes, the same set of stored records, and the same answer to every query.",
  "all thresholds, all histories, all queries", "a cache-consistency invariant over unbounded fan-out", [Z+":ConstructChildLabelsToVertexDescriptorMap", Z+":GetAncestor", Z+":GetClosestEncloser", "src/node-label.h:kHashMapThreshold"])
p("C12","Empty non-terminals exist, and nothing else does",
  "A name exists in a zone graph iff it is the root or an ancestor-or-self of the owner of some accepted record.",
  "all histories and all names", "all histories", [Z+":AddNodes", Z+":GetAncestor"])
p("C13","Zone look-up implements the authoritative look-up algorithm",
  "For every reachable zone without unsupported-type records and every query, QueryLookUpAtZone returns exactly what a short declarative rule over the set of records says: find the longest existing ancestor not below a delegation or DNAME; then delegation -> referral, DNAME -> rewrite, exact -> CNAME/answer/no-data, wildcard -> synthesis, otherwise NXDOMAIN.",
  "all reachable zones, all queries (with or without exclusion sets, any type set)", "zones and queries are unbounded and every precedence combination matters", [Z+":QueryLookUpAtZone", Z+":GetClosestEncloser", Z+":WildcardMatch", Z+":GetNodeRRTypes"])
p("C14","Delegations hide everything at and below them",
  "If a non-apex ancestor-or-self of the query name carries NS records (and no SOA), with no delegation or DNAME above it, the answer is a single referral whose NS records are exactly the zone's NS records at that name; no other data at or below the cut can influence the result except glue addresses.",
  "all reachable zones and queries", "requires all possible occluded data below the cut", [Z+":GetClosestEncloser", Z+":QueryLookUpAtZone"])
p("C15","DNAME occludes its subtree",
  "If a proper ancestor of the query name carries a DNAME (and is not a delegation, with none above it), the answer is a single rewrite by exactly that DNAME whatever exists below it; and an exact match on the DNAME owner itself is not rewritten by it.",
  "all reachable zones and queries", "all possible occluded data", [Z+":GetClosestEncloser", Z+":QueryLookUpAtZone"])
p("C16","Wildcards apply only when nothing closer matches",
  "Records at '*.e' are used to answer a query iff the query name does not exist in the zone (or the query stands for non-existent children), e is its closest encloser, and e is neither a delegation nor a DNAME owner; an existing name, even an empty non-terminal, is never answered from a wildcard.",
  "all reachable zones and queries", "all zones, in particular ENTs and nested wildcards", [Z+":WildcardMatch", Z+":QueryLookUpAtZone"])
p("C17","Answers contain only zone data and account for every requested type",
  "Every record in any look-up answer is stored in the zone; records of an ANS answer are owned by the query name (or the wildcard) and have a requested type, or are glue of returned NS records; and over the ANS answers of a non-CNAME match the type sets are disjoint and their union is the set of requested types, with empty record lists exactly for the types absent.",
  "all reachable zones and queries", "all zones and type sets", [Z+":QueryLookUpAtZone", Z+":WildcardMatch"])
p("C18","Referrals carry the right glue, and the resolver pairs it back correctly",
  "A referral lists, after each NS record in zone order, exactly the A/AAAA records stored in the same zone for that server's name; MatchNsGlueRecords applied to such a list recovers for each NS record exactly its own glue.",
  "all reachable zones, all NS sets, all glue sets", "index arithmetic over lists of any length", [Z+":AddGlueRecords", I+":MatchNsGlueRecords"])
p("C19","Missing-glue lint reports are exact",
  "With linting on, a 'Missing Glue Record' issue is written for a zone exactly once for every stored NS record whose target lies at or below the zone's origin and has no A/AAAA record in the zone, and for nothing else.",
  "all reachable zones", "tree traversal over any zone", [Z+":CheckGlueRecordsPresence", Z+":RequireGlueRecords", Z+":AddGlueRecords"])
p("C20","Loaded zones contain only in-zone records",
  "A zone built by the file loader from a file with one SOA record holds only records at or below the SOA owner; a non-SOA record before the SOA stops the program. (A file whose SOA owner is the root also stops the program at the next record: recorded as a disagreement.)",
  "all record sequences", "all histories", [Z+":CheckZoneMembership", Q+":Parser::operator()"])
p("C21","CNAME handling",
  "If the query name (not below a cut or DNAME) owns a CNAME, the answer is that single CNAME: tagged as final answer iff CNAME is the only requested type, otherwise as a rewrite; the rewritten query asks for the CNAME's target with the same types minus CNAME, no exclusion set, and a non-empty type set.",
  "all reachable zones and queries", "all zones and type sets", [Z+":QueryLookUpAtZone", I+":ProcessCname"])
# ---- label graph and ECs
p("C22","Closest-encloser search on the label graph is sound, maximal and never aborts",
  "ClosestEnclosers on any label graph reachable by AddResourceRecord always returns a non-empty list whose entries all have the same match length, so the two fatal exits in GenerateECs are unreachable; without DNAME records the result is the single node of the longest existing ancestor of the input.",
  "all label graphs built from any records (including DNAME cycles), all names", "DNAME edges make the graph cyclic; all shapes must be considered", [L+":SearchNode", L+":ClosestEnclosers", L+":GenerateECs"])
p("C23","Closest-encloser search terminates and leaves no trace",
  "The search terminates on every label graph, including cyclic DNAME chains, and restores every node's scratch field, so repeating a search gives the same result.",
  "all label graphs, all names", "termination on cyclic graphs of any size", [L+":SearchNode"])
p("C24","Equivalence classes cover every name under the job's domain",
  "For a SubDomain job on an existing domain (no DNAMEs), every name at or below the domain, short enough to be enumerated, belongs to at least one generated class: the exact class of the name if it is a node of the label graph, else the class 'non-existent children of the longest existing ancestor'.",
  "all label graphs, all names under the domain", "the tool's central claim: no query is missed", [L+":SubDomainECGeneration", L+":NodeEC", L+":WildcardChildEC", L+":GenerateECs"])
p("C25","Generated classes are legal queries",
  "Every class generated for a job has labels of at most 63 bytes and a printed name shorter than 253 bytes (SubDomain jobs) or accepted by the length check (others); class names are at or below the job's domain (or an ancestor, for a non-existent domain). (Names of exactly 253 bytes are accepted by the loader but get no class: recorded as a disagreement.)",
  "all label graphs and jobs", "all graphs, including DNAME cycles that would generate infinitely many names", [L+":SubDomainECGeneration"])
p("C26","Equivalence classes do not overlap",
  "Without DNAMEs, no two generated classes contain a common name, and no class is generated twice; so the reported EC count is the number of distinct behaviours enumerated.",
  "all label graphs and SubDomain jobs", "all graphs", [L+":SubDomainECGeneration", L+":NodeEC"])
p("C27","A class's representative has the look-up behaviour of all its members",
  "For every loaded zone, looking up the class 'non-existent children of m' returns the same answers as looking up any concrete name below m whose next label exists under m in no loaded zone.",
  "all zones, all classes, all member names of any length", "a symbolic query stands for infinitely many concrete ones", [Z+":QueryLookUpAtZone", L+":SubDomainECGeneration"])
p("C28","Resolution of a class simulates resolution of its members",
  "Under the same hypothesis, each resolution step (server contacted, answer, referral, CNAME or DNAME rewrite) of a concrete member name corresponds to the same step of the class, as long as DNAME substitution of the concrete name does not overflow the length limit; so hop and rewrite sequences agree.",
  "all contexts, all classes, all members, all resolution sequences", "bisimulation over unbounded resolution sequences", [I+":QueryResolver", I+":ProcessDname", I+":GetRelevantZone"])
p("C29","Single-name jobs check exactly the requested name",
  "For a job without SubDomain, exactly one class is generated: the name itself if it exists in the label graph, otherwise the class of non-existent children of its longest existing ancestor (which contains it); a name that fails the length check generates none.",
  "all label graphs and names", "all graphs", [L+":GenerateECs"])
# ---- interpretation graph
p("C30","Interpretation graph construction terminates",
  "For every context and every class, building the interpretation graph terminates, whatever CNAME/DNAME/NS cycles the zones contain.",
  "all contexts and classes", "mutually recursive graph construction over cyclic data; testing cannot show termination", [I+":Graph", I+":QueryResolver", I+":StartFromTopNameservers", I+":NsSubRoutine", I+":SideQuery", I+":CheckCnameDnameAtSameNameserver"])
p("C31","One node per server and query",
  "No interpretation graph contains two nodes with the same name server and equal query; re-asking a question adds an edge, never a node.",
  "all contexts and classes", "invariant over the whole construction", [I+":InsertNode", I+":SideQuery"])
p("C32","Every contacted server has a definite answer",
  "In a finished interpretation graph every node for a real server has an answer: the look-up in that server's most specific zone enclosing the query; REFUSED if it hosts none; NSNOTFOUND if it is a referred-to server with no zone files; YX if the query name is over-long after rewriting. Dummy start nodes have none.",
  "all contexts and classes", "all construction orders", [I+":QueryResolver", I+":NsSubRoutine", I+":StartFromTopNameservers", I+":CheckCnameDnameAtSameNameserver"])
p("C33","The interpretation graph is exactly the reachable resolution steps",
  "The nodes and edges of the interpretation graph are exactly the (server, query) pairs and resolution steps reachable from the class at the top name servers, according to a small declarative resolution relation.",
  "all contexts and classes", "graph closure for all inputs", [I+":Graph", I+":QueryResolver"])
p("C34","Zone selection picks the most specific enclosing zone",
  "GetRelevantZone returns a zone of the given server whose origin is an ancestor-or-self of the query name and no other such zone of that server has a longer origin; ties go to the first loaded; it returns nothing iff the server hosts no enclosing zone.",
  "all contexts, servers and queries", "all zone sets", [I+":GetRelevantZone"])
p("C35","DNAME substitution is exact and never aborts",
  "A DNAME rewrite replaces exactly the DNAME owner part of the query name by the target and keeps the remaining labels, the types and the exclusion set; the fatal 'not a sub-domain' exit is unreachable during resolution.",
  "all contexts and queries", "all zones and names", [I+":ProcessDname", I+":QueryResolver"])
p("C36","Loop reports are exact",
  "'Cyclic Zone Dependency' is reported for a class iff some cycle is reachable from the start node through resolution or side-query edges; the reported list of nodes is such a cycle.",
  "all interpretation graphs", "all cyclic graphs", [I+":CheckForLoops", I+":PrettyPrintLoop"])
p("C37","Path enumeration visits every maximal simple path",
  "Path properties are evaluated on exactly the repetition-free paths from the start node to nodes without successors, plus every enumerated path ending at a CNAME rewrite when CNAME is requested; end-node properties see exactly the last nodes of those paths, each once; enumeration terminates on every graph.",
  "all interpretation graphs", "all graphs, exponentially many paths", [I+":EnumeratePathsAndReturnEndNodes", I+":CheckPropertiesOnEC"])
p("C38","Checks never read an absent answer",
  "On every interpretation graph of a class with a non-empty type set over zones of supported types, no property check dereferences an empty optional or an empty answer vector (which would be undefined behaviour).",
  "all contexts, classes and checks", "undefined behaviour need not fail a test", [PR, I+":EnumeratePathsAndReturnEndNodes"])
# ---- property checks
p("C39","Hops check is exact","A 'Hops' violation is reported for a path iff the number of maximal runs of the same server along it exceeds the non-negative bound, and it reports that number.","all graphs, paths and bounds","all path shapes",[PR+":NumberOfHops"])
p("C40","Rewrites check is exact","A 'Rewrites' violation is reported for a path iff the number of rewrite answers on it exceeds the bound, and it reports that number.","all graphs, paths, bounds","all path shapes",[PR+":NumberOfRewrites"])
p("C41","QueryRewrite check is exact","A 'Query Rewrite' violation is reported iff some node on the path rewrites the query and the next node's query name is under none of the allowed domains; the report names those two queries.","all graphs, paths, allowed-domain lists","all path shapes",[PR+":QueryRewrite"])
p("C42","NameserverContact check is exact","A 'Name Server Contact' violation is reported for a path iff some contacted server's name lies under none of the allowed domains; one report per such node.","all graphs, paths, allowed-domain lists","all path shapes",[PR+":NameServerContact"])
p("C43","RewriteBlackholing check is exact","A 'Rewrite Blackholing' violation is reported for a path iff some node before the last rewrites the query and the last node answers NXDOMAIN; the first rewriting node is the one reported.","all graphs and paths","all path shapes",[PR+":RewriteBlackholing"])
p("C44","LameDelegation check is exact","A 'Lame Delegation' violation is reported for a path iff two consecutive nodes answer REF and REFUSED and the latter is still asked the original name.","all graphs and paths","all path shapes",[PR+":CheckLameDelegation"])
p("C45","DelegationConsistency check is exact","For the last referral-to-authoritative-NS-answer pair on a path, an 'NS' (resp. 'Glue') violation is reported iff the parent's and child's NS sets (resp. glue sets, ignoring parent glue outside the child's domain) differ as multisets modulo record equality.","all graphs and paths","all record sets",[PR+":CheckDelegationConsistency", PR+":GetNSGlueRecords"])
p("C46","ResponseReturned check is exact","A 'ResponseReturned' violation is reported iff an end node, asked for a requested type, answers (not REFUSED/NSNOTFOUND) with an empty record list for some requested type, and the class is not a non-existent-child class.","all graphs and type sets","all end-node sets",[PR+":CheckResponseReturned"])
p("C47","ResponseValue check is exact","A 'Response Value' violation is reported iff some relevant end node's set of answer values of the requested types differs from the expected set (NXDOMAIN and over-long count as the empty set; servers without information are ignored).","all graphs, type sets, expected sets","all end-node sets",[PR+":CheckResponseValue"])
p("C48","ResponseConsistency check is exact","A 'Response Consistency' violation is reported iff two informative end nodes return different record multisets, or two CNAME-requesting ones differ in answer kind or records; in particular the verdict does not depend on the order of end nodes.","all graphs and end-node lists","pairwise comparison is done against the first only; equivalence to all-pairs must hold for all sets",[PR+":CheckSameResponseReturned"])
p("C49","ZeroTTL check reports exactly zero-TTL answers","A 'Zero TTL' violation is reported for every zero-TTL record in the first answer of an informative end node asked for a requested type. (README says only records of the given types: the code does not filter, recorded as a disagreement.)","all graphs and type sets","all record sets",[PR+":ZeroTTL"])
p("C50","AllAliases check is exact","An alias (query, canonical name) is reported iff on some path a rewriting node with that query is followed, at any distance, by a node asking exactly a listed canonical name without exclusion set.","all graphs, paths and canonical-name lists","all path shapes",[PR+":AllAliases"])
p("C51","DNAME overflow check is exact","A 'DNAME Substitution exceeds length' violation is reported iff a path ends in a node whose query exceeds the DNS length limits after rewriting.","all graphs and paths","all path shapes",[PR+":DNAMESubstitutionExceedesLength", I+":CheckCnameDnameAtSameNameserver"])
p("C52","InfiniteDName check reports non-shrinking reuse of a record","'Infinite DName Recursion' is reported for a path iff the same rewrite record is used at two nodes of the path, the second of which has a query name at least as long as the most recent earlier one.","all graphs and paths","all path shapes",[PR+":InfiniteDName"])
p("C53","Structural delegation check is exact","For a node with NS data, a 'Structural Delegation Consistency' violation is reported iff some parent/child, parent/parent or child/child pair of zones disagrees on NS records or on the compared glue; parents are the zones with the longest non-authoritative origin.","all label graphs and contexts","all zone sets",[L+":CheckStructuralDelegationConsistency", L+":CompareParentChildDelegationRecords", L+":ConstructOutputNS"])
# ---- driver
p("C54","Every task is processed exactly once under every schedule",
  "For every interleaving of the EC generator, the eight consumers, the JSON consumer and the statistics collector, when GenerateECsAndCheckProperties returns every generated task has been processed exactly once, and every violation it produced has been collected.",
  "all schedules, all task lists, any number of consumers", "thread interleavings; the termination protocol uses a counter and flags", [D+":GenerateECsAndCheckProperties"])
p("C55","The set of reported violations does not depend on the schedule",
  "The violation set after a job is the union of the previous set and the violations of its tasks, with aliases grouped by canonical name, for every schedule; so two runs report the same set.",
  "all schedules and task lists", "schedule independence", [D+":GenerateECsAndCheckProperties"])
p("C56","Jobs do not leak into each other",
  "The set of classes and checks of a job depends only on that job's description. (False for StructuralDelegationConsistency, which stays on for all later jobs: recorded as a disagreement; proved for everything else.)",
  "all sequences of jobs", "all histories of jobs", [D+":SetJob", "src/job.h:Job"])
p("C57","Requested types",
  "After SetJob the requested type set is exactly the union of the listed types over properties with a Types field, plus NS iff some property has none; an unknown type name aborts the job with an exception.",
  "all jobs", "all job descriptions", [D+":SetJob"])
p("C58","Metadata sanity check",
  "Zone loading proceeds only if metadata has the required fields, every listed file exists, and at least one top name server (case-insensitively) hosts a zone file; otherwise the program stops before parsing.",
  "all metadata descriptions", "all inputs", [D+":MetadataSanityCheck", D+":SetContext"])
p("C59","Output files are well-formed lists",
  "The violations file is always '[' newline, the entries separated by ',' newline, newline ']'; and after any sequence of lint issues the lint file has the same form.",
  "all violation sets and all sequences of lint issues", "all histories of appended issues", [D+":WriteViolationsToFile", U+":WriteIssueToFile", "bin/groot.cpp:main"])
# ---- parser
p("C60","Tokenisation loses nothing",
  "The zone-file lexer accepts every input: the concatenation of token texts is the file, no token is empty, and newlines outside quotes and comments are always record/line ends.",
  "all files", "all byte strings", [Q+":zone_file_tokens"])
p("C61","Records are assembled between newlines outside parentheses",
  "A record is processed at exactly those newlines where parentheses are balanced and something was read; parenthesised newlines never end a record. (A last line without a newline is never processed: recorded as a disagreement.)",
  "all token streams", "all nestings and lengths", [Q+":Parser::operator()", Q+":ParseZoneFileAndExtendGraphs"])
p("C62","Standard record lines are read as written",
  "A line 'owner [ttl] [class] TYPE rdata' (ttl and class in either order, absolute or relative owner) yields one record with that owner (completed by the origin), type, TTL and rdata, provided the owner is not spelt like a record type. (Owners such as 'ns' or 'mx' are misread: recorded as a disagreement.)",
  "all owners, origins, TTLs and rdata", "all field contents", [Q+":Parser::operator()", Q+":GetTypeIndex"])
p("C63","Zone data is case-insensitive",
  "Changing the case of letters anywhere in the zone files, in their origins or in the server names of the metadata changes nothing in what is loaded (zones, label graph, issues, or how loading stops), as long as the control words $ORIGIN, $INCLUDE and $TTL are left alone.",
  "all files and all case changes", "all strings", [Q+":Parser::operator()"])
p("C64","Loaded contexts are well-formed",
  "After loading any sequence of zone files without aborting, every zone id listed for a server has a zone, a server and a non-duplicated id, and the label graph has a node for the owner of every record stored in a loaded zone.",
  "all sequences of files", "all histories", [Q+":ParseZoneFileAndExtendGraphs", L+":AddResourceRecord", D+":SetContext"])
p("C65","Unsupported record types never reach the label graph, and where they can abort the run",
  "Records of a type outside the supported 13 never change the label graph; the only accepted spelling of such a type is DS. (A rejected DS record aborts the whole run with an exception, and an accepted one makes later look-ups at its node undefined behaviour: recorded as disagreements.)",
  "all zone files", "all histories", [Q+":GetTypeIndex", L+":AddResourceRecord", R+":toString", Z+":GetNodeRRTypes"])
p("C66","The verdict on Hops and Rewrites is complete and sound, end to end",
  "For a whole run of a job over zones without DNAME: if some name the job is about, when resolved by itself to its end, contacts more servers (is rewritten more often) than the bound, then a Hops (Rewrites) violation with exactly that count is reported for the class the name belongs to; and every Hops (Rewrites) violation reported is true of every name the reported class stands for.",
  "all zone data without DNAME, all jobs asking for a type other than CNAME, all names and all resolution paths", "combines class coverage, simulation of a whole class by one symbolic query, graph construction and path enumeration, for all inputs", [D+":GenerateECsAndCheckProperties", L+":GenerateECs", I+":Graph", PR+":NumberOfHops", PR+":NumberOfRewrites"])
p("C67","Loops are reported exactly when some name's resolution can go in circles",
  "For a whole run of a job over zones without DNAME: a loop is reported if the resolution of some name the job is about (including the resolution of the server names it needs) can come back to where it has been; and only if that is so for every name of some class of the job.",
  "all zone data without DNAME, all jobs, all names", "cycles of any length, over all names of an infinite domain", [D+":GenerateECsAndCheckProperties", I+":CheckForLoops", L+":GenerateECs"])
p("C68","The verdicts on RewriteBlackholing, QueryRewrite and NameserverContact are complete and sound, end to end",
  "For a whole run over zones without DNAME: if resolving some name the job is about is rewritten and then denied, leaves the allowed domains by a rewriting, or contacts a server outside the allowed domains, the run reports it with the server concerned; and every such report is true of every name of some class of the job.",
  "all zone data without DNAME, all jobs, all names and resolution paths", "same as C66", [PR+":RewriteBlackholing", PR+":QueryRewrite", PR+":NameserverContact", D+":GenerateECsAndCheckProperties"])
p("C69","A run ends and never aborts",
  "Once zone files have been loaded (each as a zone with one apex, no DS records, no label that is a lone dot) and a job file has been accepted with at least one type, the whole run - class generation, all interpretation graphs, all checks, including the structural check and DNAMEs of any shape - finishes without exit, exception or undefined behaviour.",
  "all zone files, metadata and job files", "termination and absence of aborts for inputs of any size, with arbitrary CNAME, DNAME and delegation cycles", [D+":GenerateECsAndCheckProperties", D+":SetContext", D+":SetJob", I+":Graph", L+":CheckStructuralDelegationConsistency"])
p("C70","The end-to-end guarantees apply to what is loaded from files",
  "When the files of a directory are loaded (each as a zone), the zones have no DNAME and no label that is a lone dot, and the job lists a type other than CNAME (or has a property without types) and gives numbers where numbers are needed, the situation C66, C67 and C68 speak about is the one the program is in: same zones, same label graph, same job.",
  "all zone files, metadata and job files", "all file contents", [D+":SetContext", D+":SetJob", D+":ParseZoneFileAndExtendGraphs"])
p("C71","A class's path reports are exactly what the checks say about its resolutions",
  "Testing a class over any zones (DNAMEs included) finishes, and reports for Hops, Rewrites, DelegationConsistency, infinite rewriting, LameDelegation, QueryRewrite, NameserverContact, RewriteBlackholing, AllAliases and over-long names exactly what each installed check says about the transcripts (server, question, answer) of the resolutions of the class: none lost, none invented, with the printed names, servers and numbers. The answers in the transcripts are those the zones determine.",
  "all zones, all classes, all sets of installed checks, all resolution paths", "graphs of any size and shape, all interactions of checks", [I+":Graph", I+":CheckPropertiesOnEC", PR+":CheckDelegationConsistency", PR+":CheckLameDelegation", PR+":NameserverContact", PR+":QueryRewrite", PR+":RewriteBlackholing", PR+":AllAliases", PR+":NumberOfHops", PR+":NumberOfRewrites"])
p("C72","A class's reports on final answers are exactly what is wrong with them",
  "Testing a class reports an inconsistency iff two of the final answers that count disagree; a zero TTL iff a final answer that counts has such a record; a wrong value iff a final answer does not consist of exactly the expected values, and then lists all of the wrong ones; and a missing type only if a final answer lacks it - always, unless the class is marked as one of non-existent names.",
  "all zones, all classes, all sets of installed checks", "all sets of final answers reached over graphs of any size", [I+":CheckPropertiesOnEC", PR+":CheckSameResponseReturned", PR+":CheckResponseReturned", PR+":CheckResponseValue", PR+":ZeroTTL"])
p("C73","A class's loop report is exact and shows a real circle",
  "Testing a class, over any zones, reports a loop iff the resolution of the class (including that of the server names it needs) can come back to where it has been; there is at most one report, and it lists a circle of server/question/answer entries each of which leads to the next, reachable from the class's question.",
  "all zones and classes", "cycles of any length in graphs of any size", [I+":CheckForLoops", I+":Graph::CheckForLoops"])
p("C74","Generating the classes in parallel gives the sequential classes when the producer threads keep apart",
  "GenerateECs starts one thread per closest encloser; all of them write a scratch field of the shared label graph. If no name is visited from two of the enclosers (in particular if no DNAME lies above the job's domain), then under every schedule the threads end after a bounded number of steps, the tasks enqueued are those of a sequential generation, each as often, the label graph is what it was, and with the consumers and collectors running at the same time the violations collected are those of the sequential run. Under every schedule, even when threads meet, only tasks of the sequential generation are enqueued. (When threads meet, classes can get lost, marks can stay behind and the recursion may never end: recorded as disagreements.)",
  "all label graphs, jobs and interleavings of producers, consumers and collectors", "all schedules", [L+":GenerateECs", L+":SubDomainECGeneration", D+":GenerateECsAndCheckProperties"])
p("C75","The whole program reports what its jobs contribute, in any order of jobs and under every schedule",
  "If the program gets to the end, its report is what the jobs contribute, each as if run alone by a new driver on the same files (except that the structural check stays on once asked for): nothing lost, invented or listed twice; the number of classes stated is that of all jobs. Order and repetition of jobs do not matter (without the structural check), nor does linting; without a job file the default job is run; the glue issues are exactly the NS records whose in-zone server has no address. With good files and acceptable jobs the program gets to the end; bad metadata ends it before any job. When the producer threads keep apart, under every schedule of every job the report is that of the sequential program, up to the order of alias groups.",
  "all file contents, metadata, job files and schedules", "whole histories of jobs over a shared driver and label graph, under all schedules", ["bin/groot.cpp:Main", D+":SetContext", D+":SetJob", D+":GenerateECsAndCheckProperties", D+":WriteViolationsToFile"])
p("C76","The output file and lint.json are JSON texts that say exactly what was found",
  "After a run that gets to the end: if all reported strings are UTF-8, output.json is a JSON text in UTF-8 - an array with one object for every violation found and no other, none twice, each with exactly the entries of its violation; otherwise the file is cut off and is no JSON text. Different violations give different objects. The bytes depend only on which violations were found, hence (without DNAMEs below the jobs' domains and with at most one alias group) not on the schedule. lint.json is likewise an array of the issues in the order found. (A byte that is not UTF-8 in an issue aborts the run; recorded as a disagreement.)",
  "all file contents, metadata, job files, strings of any bytes, numbers of violations and schedules", "all strings and all sets of violations; escaping, ordering and separators must be right for every combination", [D+":WriteViolationsToFile", U+":LintUtils::WriteIssueToFile", U+":LintUtils::WriteRRIssueToFile", Z+":CheckGlueRecordsPresence", "bin/groot.cpp:main"])
p("C77","What the output files say comes from the input; UTF-8 in, JSON in UTF-8 out",
  "Every character of every string in the output file and in lint.json is ASCII or occurs in the input (metadata.json, the job file, the zone files and their names): cutting, joining and lower-casing never make up a byte. If all strings of the input are UTF-8, no string is ever cut inside a character: the output file is complete and a JSON text in UTF-8 with one object per violation, and asking for lint messages never aborts the run.",
  "all file contents, metadata and job files", "all input texts; every path by which a string can reach a report", [D+":WriteViolationsToFile", U+":LintUtils::WriteIssueToFile", R+":ResourceRecord", Z+":CheckGlueRecordsPresence", "bin/groot.cpp:main"])
p("C78","metadata.json and the job file are read for what they say",
  "From the JSON values of metadata.json and of the job file, whatever their shape, the program does what they say: it gets to its end exactly if the values say something (the members it needs are there, of the right kind) and the run on what they say does, with the same report and the same files. What a value says is unique; members the program does not know have no effect; a list may be an array, an object (its values), null (empty) or a single value; numbers are taken modulo 2^32, and are only needed when a class is tested. Missing members of the metadata exit, wrong kinds throw. (Missing members of a job are undefined behaviour; a job file with a single job throws: recorded as disagreements.)",
  "all JSON values of both files, all zone files", "all shapes of JSON input, nested to any depth", [D+":SetContext", D+":SetJob", D+":MetadataSanityCheck", "bin/groot.cpp:Main"])
p("C79","A run reports exactly what its checks say",
  "The reports of a run are, in order, the reports of its classes and of its structural checks; each class reports exactly what the installed checks say about its resolutions (paths, final answers, loops), each structural check exactly the disagreeing zones of its name. In particular every name known from the zone files at or below the domain is tested by itself with the types of the job, and every violation the checks call for is reported; a job about a single known name reports that and nothing else; and every report is called for by a check about a class that was generated. DNAMEs are allowed. If the top servers have zone files the answers, and so the outcome, are determined by the zones.",
  "all zones, all jobs, all names", "all zone files and jobs; all resolutions of all names", [D+":GenerateECsAndCheckProperties", D+":SetJob", L+":GenerateECs", I+":CheckForLoops"])
p("C80","A zone file loads exactly what is written",
  "A zone file whose logical lines are of standard form (empty and comment lines, $ORIGIN, $TTL, records with explicit, omitted or @ owner, in parentheses or not) is loaded as it is written: every line offers the record it stands for under the suffix, owner and TTL in force; the zone holds, in order, exactly those offered records that are within the length limits, in the zone and not in conflict with an earlier one; the label graph gets exactly those; there is a zone iff an SOA record is given a name, it belongs to the server named in the metadata and has the number of the file; and with linting on there is exactly one issue for every record not kept, with its line number, its text, the reason and the record it is in conflict with. A record before the SOA record ends the program. The same holds for any number of files.",
  "all files of standard lines, all origins, any number of files", "all sequences of lines; every line depends on what all earlier lines left behind", [Q+":ParseZoneFileAndExtendGraphs", Q+":Parser", Z+":AddResourceRecord", Z+":CheckZoneMembership", U+":LintUtils::WriteRRIssueToFile", D+":SetContext"])
p("C81","Verdicts about final answers hold for every name",
  "In zones without DNAMEs, for every name in the scope of a job, known or not: if two final answers of its resolution disagree, if a final answer has a record with TTL zero, if it does not consist of exactly the expected values, or if it lacks a requested type, the run reports it (with server, record, values, types); and each such report is true of every name of the class it is about. A final answer is one from which no step leads on (or an alias that was asked for), on whatever way it is reached. The question is for the types of the job; but below the longest known part of a name without a wildcard, in a job about subdomains, the program asks for all types (so it may report types nobody asked for: recorded as a disagreement) and does not report missing ones.",
  "all zones without DNAME, all jobs, all names in scope, all ways of resolving them", "infinitely many names, all resolutions", [PR+":CheckSameResponseReturned", PR+":CheckResponseReturned", PR+":CheckResponseValue", PR+":ZeroTTL", L+":GenerateECs", I+":EnumeratePathsAndReturnEndNodes"])
p("C82","Lame and inconsistent delegations are reported for every name, and only those",
  "In zones without DNAMEs, for every name in the scope of a job, known or not: if a server consulted about it (a top server, or one to which a server consulted refers) refers to a server that has zone files but none for the name, the run reports a lame delegation with both servers; and if a server consulted delegates the name itself to a server whose zone has its own NS records there (and NS records are asked for), the run reports it if the two zones name different servers, and if what they say about addresses within the name differs. Each such report is true of every name of the class it is about. (The child's own addresses at the name are counted as well, so a perfectly consistent delegation may be reported: recorded as a disagreement.)",
  "all zones without DNAME, all jobs, all names in scope, all chains of referrals", "infinitely many names, all chains of referrals of any length", [PR+":CheckDelegationConsistency", PR+":CheckLameDelegation", I+":BuildInterpretationGraph", L+":GenerateECs"])
p("C83","Any sequence of resolution steps that shows a problem is enough for a report, reports are true of whole resolutions, and the list of aliases is complete and true",
"For a job over zones without DNAMEs: if while some name of the job is resolved -- at whatever point, not only at the end -- more servers are contacted or more rewritings made than allowed, or a name or server outside the allowed domains is met, or a question for a name is rewritten and one for a listed canonical name asked later, or the same record is used for a second rewriting of a name at least as long, or a rewriting makes a name too long, then the run reports it (or reports a rewrite loop); conversely each such report is true of the resolution, carried on to its end without repetitions, of every name its class stands for, unless the resolution of that name goes in circles.",
"every zone configuration without DNAMEs, every job, every name in scope, every sequence of resolution steps",
"the names are infinitely many, the steps of any length, and the report is about a class",
[(PR,"Hops, Rewrites, QueryRewrite, NameserverContact, AllAliases, RewriteBlackholing"),(I,"Graph::CheckPropertiesOnEveryPath, Graph::DFS")])

p("C84","With DNAMEs too, the reports about paths are complete and true of every name, as long as no DNAME leads beneath another",
"Let the zones contain DNAME records, none of which leads strictly beneath the owner of a DNAME (and none at the root). Every name a job is about stands in one of its equivalence classes: it is the class's name, or lies below it with a next label known to no zone, not even by way of DNAMEs. If the resolution of any such name (with no question for an over-long name) has more hops or rewritings than allowed, a loop, a rewriting into nothing, a contact with a server or a rewriting outside the allowed domains, it is reported; and what is reported holds of every name in the class. Without DNAMEs the classes stand for the same names as in C66.",
"every set of zones without nested DNAMEs, every job, every name the job is about, every resolution of it, every report",
"A test resolves some names; the claim is about all names, infinitely many of which share one class, and their resolutions rewrite to different names.",
[L+':LabelGraph::GenerateECs',I+':InterpretationGraph',PR,Z+':Zone::QueryLookUp'])
p("C85","A TTL is read as the number it is written as, refused if it has no room, and a record with something else in its place is dropped",
"A TTL in a record line is digits, perhaps after a sign; the record gets that number, modulo 2^32 (C62, C80). If the number has no room in an int, in a record or after $TTL, or $TTL is followed by a word that begins with no number, the program stops with an exception. After $TTL only the number at the beginning of the word counts. A record with a word between owner and type that is neither class nor number is dropped, but its owner as written, and a TTL before that word, become defaults of the lines that follow.",
"every record line and $TTL line, every number, every state of the parser, every rest of the file",
"Tests try some TTLs; the claim covers all numbers, in all positions, and everything that may precede or follow the line.",
[Q+':Parser',Q+':isInteger'])
p("C86","From the input files to the output file: nothing wrong goes unreported, nothing reported is wrong",
"Given metadata, a job file and zone files of standard lines without DNAMEs, if the program gets to its end then output.json is a JSON array such that: for every job, every property listed in it and every name in the job's scope, if what the files say makes that property fail for the name (too many hops or rewritings, a rewriting into nothing, a contact or rewriting outside the allowed domains, a lame or inconsistent delegation, a listed name reached from an alias, a second rewriting with the same record of a name at least as long, a name that becomes too long, a zero TTL, disagreeing, wrong or missing final answers) or resolution go in circles, an object of the array says so (or reports a loop); an empty array means that none of this happens to any name of any job; and conversely every object of the array that is not a structural report (and only then is one allowed, when some job asks for them) is true of some real name in the scope of some job one of whose properties asks for it. (The content of structural reports is that of C53 and C79.)",
"all metadata, job files and zone files without DNAMEs, all jobs, all properties, all names in scope, all resolutions",
"The claim joins bytes of the input files to bytes of the output file for all files and infinitely many names.",
["bin/groot.cpp:main", D+":SetContext", D+":SetJob", D+":GenerateECsAndCheckProperties", D+":WriteViolationsToFile", Q+":ParseZoneFileAndExtendGraphs"])
p("C87","Every class that is tested has a name in it, and every report is true of a real name",
"In zones without DNAMEs, if no owner is longer than 250 bytes and some character is not a label on its own, every class tested by a run contains a name in the job's scope that the program could be asked about, and every report (other than a structural one, which is made only if asked for) is true of such a name. (Without room the program tests, and reports about, classes that no legal name belongs to: recorded as a disagreement.)",
"all zones without DNAMEs, all jobs, all classes tested, all reports",
"A report about an empty class would be vacuously true of all its names; no test enumerates all classes.",
[L+":GenerateECs", L+":SubDomainECGeneration", D+":GenerateECsAndCheckProperties"])
p("C88","With DNAMEs too, the reports about final answers and delegations are complete and true of every name, as long as no DNAME leads beneath another",
"Let the zones contain DNAME records as in C84. About every name of a job something is asked: the job's types, or all types where the longest part of the name that is known (DNAMEs followed) is known by a name without a wildcard. If the final answers to such a question contain a zero TTL, disagree, have the wrong value or lack a type, or if a server is referred to for the name and refuses, or parent and child disagree about its servers or their addresses, the run reports it; and each such report is true of every name of some class tested (its answers are final answers of that name; for delegations the report is about the name of the class, and the resolution of every name of the class puts a question about it to the parent). Without DNAMEs what is asked is the question of C81.",
"every set of zones without nested DNAMEs, every job, every name the job is about, every resolution of it, every report",
"A test resolves some names; the claim is about all names, infinitely many of which share one class.",
[L+":LabelGraph::GenerateECs",I+":InterpretationGraph",PR])
p("C89","From the texts of the input files to the text of the output file, also with DNAMEs: everything forbidden is reported, and every report is true",
"As C86, for zone files with DNAME records none of which leads beneath another: if a property of a job forbids something and it happens while some name in the job's scope is resolved (too many contacts or rewrites, black holes, rewrites or contacts outside the domains, lame or inconsistent delegations, aliases of listed names that some zone knows, a second rewriting with the same record of a name at least as long, wrong, missing, disagreeing or zero-TTL final answers), the output file has an object that says so about a class the name belongs to, or one that tells of a loop; circular resolutions are reported; an empty list is a clean bill. Conversely each object of the output file is a structural report, or is about a class of the job that contains a name of legal length (unless it is that of the names below one without room) and says something true of each of its names that is resolved without over-long names — or says that there are none; listed aliases are names (or classes of names) for which a question is rewritten before the listed name is asked for.",
"every set of zone files with such DNAMEs, metadata and jobs, every name in the scope of a job, every resolution of it, every object of the output",
"Tests compare outputs on sample inputs; the claim relates the meaning of every input to every object of the output.",
["bin/groot.cpp",D,L+":LabelGraph::GenerateECs",I+":InterpretationGraph",PR,Q])
p("C90","The program with its threads, from the input files to the output file: it ends, and its report is complete and true whatever the threads do",
"On good input (every zone file can be read and is a zone, names redirected by a DNAME are not redirected again at once, jobs are well-formed and ask for some type, no DNAME is above the domain of a job, all strings are UTF-8) the program ends, run in turn as well as under some schedule of the threads, and under every schedule that ends the output file is complete and a JSON list; whatever the schedule, its objects are the same as those of the run in turn, up to the order of groups of aliases; everything a property of a job forbids that happens to a name in the job's scope is reported there (or a loop is), circular resolutions are reported, each object is true, and an empty list is a clean bill.",
"every good input, every schedule of the generator, producer, consumer and writer threads of every job, every name in the scope of a job, every object of the output",
"Schedules, names and inputs are infinitely many; a test sees one interleaving of one input.",
["bin/groot.cpp",D,L+":LabelGraph::GenerateECs",I+":InterpretationGraph",PR,Q])
p("C91","The structural delegation check, from the texts of the zone files to the text of the output file",
"On good input (as in C90, so no DNAME is above the domain of a job), whatever the threads do: if the structural check is on for a job (the job or an earlier one asks for it) and the job covers the names below its domain, then for every name of legal length at or below the domain that some zone has NS records of and about which two zones disagree (parent and child, or two of the same role: NS records, or addresses of the named servers where both zones have to have them), the output has an object that names it and lists exactly the pairs of zones that disagree, with role, server and the records that both, only the first and only the second have; and each structural object of the output is one of these, about a name at or below the domain of a job for which the check is on. An empty output file is a clean bill of the delegations.",
"every good input, every schedule, every name, every pair of zones",
"Delegations, zones and names are unbounded; tests look at a few pairs.",
[D,Z,L+":LabelGraph::GenerateECs","bin/groot.cpp"])
p("C92","Every record of the zone files is accounted for in the statistics",
"After all zone files are loaded, whatever they contain, the table of record statistics names every key once, no counter is zero, and apart from the wildcard counter (which counts in addition) the counters add up to the number of records parsed; the counter of a type is the number of records of this type put into the graphs, the wildcard counter the number of those owned by a wildcard. For files of standard lines every counter is the number of records, over all files, that are kept with this type, or refused for this reason (over-long label, over-long domain, out of zone, duplicate, CNAME/DNAME conflict).",
"all metadata and all contents of zone files; for the exact counters, all files of standard lines",
"Tests compare counters on sample files; the accounting has to hold for any mixture of records and refusals over any number of files.",
[Z+":Parser",Z+":ParseZoneFileAndExtendGraphs",D+":SetContext"])
p("C93","Only what was asked for is reported",
"Whatever the zone files, the metadata and the jobs, and whatever the threads do: each violation in the report tells of a loop, or answers a property of one of the jobs — same kind, the same bound, the same list of allowed domains or expected values, an offence against it (more hops or rewrites than the bound; a target or server outside all the allowed domains; types without a response that are among those listed; a list of mismatches or of differing zones that is not empty) — or groups aliases of canonical names listed by one job. Without a job file only loops, more than 2 hops, more than 1 rewrite, inconsistent and lame delegations and black holes are reported.",
"every input on which the program gets to its end, every schedule of the threads, every violation reported",
"A test sees that some wrong report is missing on some input; the claim excludes all others on all inputs.",
[D+":SetJob",PR,L+":SubDomainECGeneration",L+":CheckStructuralDelegationConsistency"])
p("C94","The program run without a job file: it ends, and its report about the NS records of all names is complete and true",
"Run on good zone files without a job file, the program ends, in turn and under some schedule of the threads, and whatever the schedule writes a complete JSON list with the same objects. If resolving the NS records of some name contacts more than two servers, rewrites the question more than once, is rewritten and ends nowhere, or finds its delegation lame or inconsistent, an object says so, or tells of a loop; circular resolutions are reported; each object is of one of these five kinds or a loop, and true; an empty list is a clean bill.",
"all good zone files and metadata, every schedule, every name, every object of the output",
"Names and schedules are infinitely many; a test sees a few.",
["bin/groot.cpp:main",D+":SetJob",D+":GenerateECsAndCheckProperties",PR])
p("C95","The statistics logged after each job are true and do not depend on the threads",
"On good input, under every schedule of the threads of every job, the statistics logged after a job are those of one list of equivalence classes that together stand for all names the job is about: the number of classes, and maximum, minimum, sum and number of the sizes of their resolutions, where the number of vertices is the number of different pairs of a server and a question met (each counted once), and the edges list exactly the steps between them. One graph is measured per class, none is lost or counted twice, the figures are the same for every schedule, and the numbers of classes of all jobs add up to the total of the run in turn. (The median, which the library estimates from the order of the samples, is not covered.)",
"every good input, every job, every schedule of its threads, every class",
"Schedules are infinitely many; a collector that leaves early or a lost sample shows only in some of them.",
[D+":WriteStatsForAJob",D+":GenerateECsAndCheckProperties",D+":GetECCountForCurrentJob","src/ec-task.cpp:Process","bin/groot.cpp:main"])
p("C96","The files and the exit status of the process, whenever it is looked at or killed",
"Whatever the arguments, the directory and the moment at which the process ends or is killed (between two writes or within one): if the run does not get to its report (unreadable input, a failed check, an exception, a crash in a job), every file but lint.json is as it was before, lint.json too unless linting was asked for. If it does, the output file is as it was or has a beginning of the report, and reads as JSON only if it is as it was or is the complete report; lint.json reads as JSON only if it is as it was or is complete, and then the output file is complete too; no other file is ever touched. The process returns normally exactly if the report was written to the end; metadata without name servers or zone files ends it with status 1. On good input it returns with status 0 and a complete report.",
"all arguments, all directories, all texts of files, every prefix of the sequence of writes and every cut within a write",
"Crash points are as many as bytes written; a test sees a run that ends.",
["bin/groot.cpp:main","bin/groot.cpp:Main","src/utils.cpp:WriteIssueToFile",D+":WriteViolationsToFile",Z+":Parser"])
p("C97","The order in which metadata.json lists the zone files does not matter",
"Take good input in which no server has two different zones of the same origin. List the zone files in any other order. Then, in turn or under every schedule of the threads, the program leaves an output file with the same objects (groups of aliases in any order); only objects about a disagreement between zones on a delegation can differ, and those are about the same names. Without a structural check nothing differs. If a server has two different zones of one origin, the order matters: the first one is asked.",
"all good input, all reorderings of the zone files, every schedule of the threads in either run, every object",
"Reorderings and schedules of unboundedly many files; a test compares two.",
[D+":SetContext","src/zone-graph.cpp:ZoneGraph","src/interpretation-graph.cpp:GetRelevantZone",D+":GenerateECsAndCheckProperties","src/label-graph.cpp:AddResourceRecord"])
p("C98","The report is empty exactly when nothing is wrong",
"Take good input whose names have room (for files without DNAMEs: some character is no label, owners have at most 250 bytes, domains fewer than 253), and jobs that forbid only what is judged alike for all names of a class: numbers of hops and rewrites, contacts outside domains, black holes, lengths of DNAME substitutions, zero TTLs, expected values and consistent answers, rewritings out of domains the files know, the structural check; for a job about a single name also missing answers and aliases. Whatever the threads do, the output file is an empty list if and only if no name of any job resolves in circles or does anything its properties forbid and no two zones disagree about a delegation where that check is on. So there are neither missed violations nor spurious ones.",
"all such inputs, all schedules of the threads, all names of all jobs",
"A test can show a report where it expects one; that no name among infinitely many is wrong when the report is empty, and that no report is spurious, is about all names at once.",
[D+":GenerateECsAndCheckProperties",L+":SubDomainECGeneration",PR,D+":WriteViolationsToFile"])
p("C99","Only a malformed number in the job file aborts the process",
"An exception in one of the threads that test the jobs would abort the process without an output file. That happens only if a job of the job file has a property Hops or Rewrites whose value is there and is neither a number nor a boolean; without a job file it never happens. This is so whatever the zone files contain, whatever they are named and however the threads are scheduled: no task of a job without such a property throws, whichever label graph it meets. Conversely, if such a property is accepted and the zones are good input, then as soon as some name the job is about is resolved without going in circles the job has no result, so that nothing is reported.",
"all directories, all arguments, all jobs, all tasks and label graphs",
"A test can run some files without an abort; that no contents of any zone file lead to one, on any schedule, is about all of them.",
[PR,D+":GenerateECsAndCheckProperties","src/ec-task.cpp:ECTask::Process","src/interpretation-graph.cpp","bin/groot.cpp:main"])
with open('/verif/properties.jsonl','w') as f:
    for x in P: f.write(json.dumps(x)+"\n")
print(len(P))
