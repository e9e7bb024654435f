plan = {
113:"Scripts with iterators at the wrapper; equality with a specification in which iterators run first and the trees they returned are appended at once; invariants (mode, spans, others) and the simulation of deferring by mutual induction.",
114:"Invariant of programs on values: every stream is well-formed but for a joint punct at its end; induction over programs with C108 for the heap, C03 for the text and C109 for printing.",
115:"Spec: `Printable` and `respace`. `respace ts` of a printable stream is well-formed, and the printed text of `ts` is a way of writing it: where printing puts no space behind a punct that is alone, the tokens may touch; then the lexing theorem for written streams of C05. Programs with C108 and C109.",
112:"Programs with the code of iterators inside of the calls that run it; refinement of the heap by values, in which the stream that is being extended is hidden, by mutual induction on programs and iterators.",
1:"Model parse.rs at byte level with panics; refine to a char-level lexer; show panic/diverge unreachable.",
2:"Same refinement, applied to Literal::from_str_checked.",
3:"Induction over well-formed trees: the lexer machine run on a layout of the stream reaches the end with the stream appended.",
4:"Show parsed streams are well-formed (from the big-step relation), then C03.",
5:"C03 is proved for arbitrary layouts (any trivia as separators); printing is one layout.",
6:"Big-step relation `Lex` equivalent to the stack machine; tiling by induction on it.",
7:"From the big-step relation and an independent balanced-bracket spec.",
8:"Independent depth-scan spec; equality by induction on the text.",
9:"Direct computation of the machine step plus C18 for the value.",
10:"Case analysis of doc_comment and leaf_token on a comment start.",
11:"Characterisation of `punct`, lifted through the big-step relation.",
12:"Same.",
13:"Characterisation of `ident`, lifted through the big-step relation.",
14:"Grammar of literal bodies, proved for each literal lexer.",
15:"First-occurrence specification of the raw terminator.",
16:"Shift-invariance of the machine in the offset.",
17:"Machine invariant: error offsets lie in the file.",
18:"escape_utf8 vs lexer units and vs unescape, induction on the string.",
19:"Same for bytes.",
20:"Concrete model of UTF-8 validation (valid_up_to/error_len), induction on bytes.",
21:"Case analysis, hex-digit round trip.",
22:"Finite table over UInt8 lifted by a lemma plus context lemma.",
23:"Decimal printing model, induction on digits.",
24:"Float Display as parameter with a shape hypothesis.",
25:"From the literal lexer characterisation.",
26:"Unit-by-unit agreement of lexer and unescaper; CRLF counterexample proved as negation.",
27:"Prefix case analysis; slices modelled with panics.",
28:"Inductive denotation relation as spec; induction.",
29:"Direct.",30:"Direct.",
31:"Total order on byte strings; injectivity of printing on valid identifiers.",
32:"leaf_token on identifiers.",
33:"Finite table.",
34:"Heap model with reference counts refined to value semantics, induction over op sequences.",
35:"List homomorphism lemmas, and through the C34 refinement.",
36:"Invariant over API constructions.",
37:"Heap model of the worklist drop loop, refined to recursive reference-count release.",
38:"Iterator state machine.",
39:"Induction on lists.",
40:"Invariant over source-map histories.",
41:"Counting spec; binary search correctness.",
42:"Cache invariant over query histories.",
43:"Tiling + source map.",
44:"Tiling.",
45:"Tiling.",
46:"Source-map invariant.",
47:"Arithmetic over all Nat bounds with checked u32 conversions.",
48:"Source-map invariant.",
49:"Source-map invariant.",
50:"State equality after truncate.",
51:"Case analysis over token trees.",
52:"Order laws; monotonicity of the counting spec.",
53:"Reachability invariant over span-producing operations.",
54:"Sequential state machine.",
55:"Interleaving transition system with Once.",
56:"Refinement to list append over op sequences.",
57:"Tag-homogeneity invariant; panic on mixed pairs.",
58:"Compiler parser as parameter with panic outcome.",
59:"Induction over the unescaper with byte positions.",
60:"Machine on BOM-prefixed input.",
61:"Machine run on a then on the rest; shift invariance.",
63:"Declarative grammar of numbers and literals; each lexer function shown equivalent to its grammar rule.",
64:"Declarative grammar of token streams; big-step relation equivalent to it by induction both ways.",
66:"Simulation of the wrapper by direct calls, one call at a time.",
67:"The same for eager streams; then C56.",
68:"Display of an embedded stream; C03.",
69:"The refinement is generic in the type of positions; at `Unit` the machine runs like the pure one with spans erased.",
70:"Same, for Literal::from_str.",
72:"Independent inductive specification of faults and reports; the unescaper and the specification are both deterministic and simulate each other.",
73:"C72 and the fold over the calls.",
75:"Simulation of the system with the hook by the one of C54 and C55.",
76:"Invariant on who has taken the hook; for overlapping detections, a count of the do-nothing hooks in circulation, over all threads.",
77:"Rank of program counters; the invariants of C55 through the simulation.",
78:"Mutual induction with the text that follows; indentation is injective; a literal ends where the lexer says.",
79:"The text of the stream without spans; C78.",
80:"Independent layout with the depth as parameter; the indenting adapter, applied k times, is a margin of 4k. Independent one-line form.",
81:"Induction; padding by cases.",
82:"C20, C22 and the call of the wrapper.",
84:"C16, C01 and C02 at the empty history; UTF-8 decoding inverts encoding.",
85:"Splitting inverts joining; induction on digits.",
86:"Normal form of the script: a list of conditional lines; independent meaning of each cfg and name as the sources spell it.",
87:"Non-interference: normal forms of two runs compared.",
88:"Independent relation between environment and command, shown to be a function.",
89:"The generic lexer at wrapping positions simulates the pure machine with its spans reduced; nothing wraps below 2^32.",
90:"A file that is found starts at or before both ends of the span, so no subtraction underflows; two concrete wrap-arounds with an opaque padding length.",
91:"std's layout of digits written out, its choice of digits a parameter that rounds to the float; values as integers in units of the smallest float, monotone in the bits.",
92:"Auto traits as a greatest fixed point over the field types; refuted by unfolding, proved by a self-justifying set.",
93:"A second step function for programs without `span_locations`; simulation by erasing all spans, one call at a time.",
94:"Every call is a step of C53's sessions; case analysis over calls and induction over trees.",
96:"The spelling as an inductive relation, shown to be a function; where the decoder of UTF-8 fails no character is encoded, and what it skips are continuation bytes.",
97:"A product of the system of C55 with a program for each thread; executions project to executions of C55 and to runs of C57.",
98:"The lexer in a monad that counts steps, erased to the model; every function has a bound in what it consumes, with a potential (the identifier characters ahead) that pays for what numbers and lifetimes look at again.",
99:"Induction on the big-step relation, with a bound for the escapes of a doc comment.",
100:"The relation for failing runs over the grammar of C64: an invariant of the machine (what is read, with the open delimiters), and that derivations can be followed by the machine from any state.",
101:"Induction over trees; induction on the big-step relation with the bound for escapes of C99.",
102:"Induction on the grammar: what follows a closing delimiter is irrelevant; single tokens by C03, moving by the shift lemma.",
103:"The operations on the heap in the monad that counts steps, erased to the model; a potential (the tokens in memory) pays for drops; what the loop of `drop` frees is shown by the value, by the invariant of C37.",
104:"The functions of the source map in the monad that counts steps, erased to the model; the cache holds the ends of the spans asked about, and the cost of a look-up is the distance to any position in it.",
105:"Printers as programs over an arbitrary writer; each is a list of pieces, by induction over trees; the adapter that indents turns pieces into pieces.",
106:"A product of the system of C75 with a program for each thread; every execution is simulated by one of C97, in which a thread that panicked in the detection is still waiting.",
107:"The unescaper in the monad that counts steps, erased to the model; each function pays for what it consumes; the size by induction on the meaning of C28.",
108:"The lexer with its builders as variables of the heap; it refines the lexer of C01 step by step, with an invariant on the cells allocated since the start; what a failed run leaves is found with C37.",
109:"The heap with counts raised by a function of the address; cloning and dropping add to and take from that function; induction on the depth and the trees.",
110:"Each call is a program of heap operations whose effect on values is computed (C34); with the parser (C108) and printing (C109) a simulation between heap states and the values of C66.",
111:"The conditional definitions as a table with conditions and references; references become implications between conditions, which are checked for all settings that the relations of C86 allow.",
95:"C01, C02, C27, C29–C33, C53 for the functions; case analysis over calls; induction over programs with C94.",
83:"C01, C03, C04 across the two printers and parsers.",
74:"C59, C63: inversion of the literal grammar at the text of a mode.",
71:"C03–C05 on the pure machine, which has no bound.",
65:"From C64's equivalence with the deterministic machine.",
62:"Independent denotation of character and byte literals; case analysis.",
}
import json
rows=["## Properties: what is modelled and how it is proved\n","| id | property | plan |","|---|---|---|"]
for l in open('/verif/properties.jsonl'):
    x=json.loads(l); n=int(x['id'][1:])
    rows.append(f"| {x['id']} | {x['title']} | {plan.get(n,'')} |")
s=open('/verif/DESIGN.md').read()
s=s.split("## Properties: what is modelled")[0].rstrip()+"\n\n"+"\n".join(rows)+"\n"
open('/verif/DESIGN.md','w').write(s)
