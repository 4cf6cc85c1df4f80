# Formal model of pygae/galgebra in Lean 4

## Trusted base

* Lean 4.33.0's kernel, Mathlib's definitions of `CliffordAlgebra`, `ExteriorAlgebra`,
  `Matrix.det`, ... used in specifications, and the axioms `propext`, `Classical.choice`,
  `Quot.sound`.  No other axiom, no `sorry`, no `native_decide`, no `bv_decide`.
  `AXIOMS.md` (written by `tools/axioms.py` from `#print axioms`) lists the axioms of every property
  theorem.
* The reading of the Python source: every model definition cites the lines it transcribes.
* **Coefficients.**  SymPy scalar expressions are modelled as elements of an arbitrary
  commutative ring `R` (field `K` where the code divides) with decidable equality.  What SymPy
  does *inside* a coefficient (canonical ordering, `simplify`, `trigsimp`, `expand`) is assumed
  to preserve the value and to decide zero.  This is the one large idealisation; everything that
  galgebra itself does with the blade part of an expression is modelled.  C85 and C86 remove the
  assumption that zero is decided for calculations with operators and methods: `R` may be the ring of
  expressions up to `expand`, with a homomorphism to their values that is not injective.
* **Multivector expressions.**  A SymPy expression that is linear in the non-commutative blade
  symbols is modelled, after `expand`, as the list of its `Add` arguments: a list of pairs
  (coefficient, index list).  The index list `[i1,...,ir]` stands for the symbol
  `e_i1^...^e_ir` (blade representation) or `e_i1*...*e_ir` (base representation).
* **Derivatives.**  SymPy's `diff` by a symbol is an arbitrary family of additive maps that satisfy
  the product rule and commute; theorems state which of these they use.
* **Exceptions** are values: `none`, a constructor of an error type, or the symbol `error`, which
  every operation keeps.  SymPy's `zoo` (division by zero) is `none`.
* **Python dictionaries** are association lists in insertion order (`Model/Dict.lean`).

## Layout

* `Verif/Spec/`  - independent specification on top of Mathlib's Clifford and exterior algebras.
* `Verif/Model/` - the model, function by function, with file/line citations.
* `Verif/Proofs/` - helper lemmas.
* `Verif/Props/` - one theorem (or a few) per property, with a non-vacuity `example` beside each.

## The central refinement

For a metric `g : Matrix (Fin n) (Fin n) R` the specification is Mathlib's `CliffordAlgebra (Q g)`
with `Q g v = sum g i j v i v j`.  A list of terms denotes
`sum c * B(idx)`, with `B(idx)` the product of generators (base representation) or the image of the
exterior product under Mathlib's `CliffordAlgebra.equivExterior` (blade representation).
Mathlib's basis of the exterior algebra gives injectivity of the denotation on normal forms, so
equalities in the Clifford algebra come back as equalities of all coefficients that the API
returns.

## What is modelled

| Model file | Python code |
|---|---|
| `Index` | ga.py: `indexes`, `blade_reduce`, sorting and contraction loops of the products of basis blades, `reduce_basis`, `reduce_basis_loop`, grade rules of the inner products |
| `Dict`, `Table` | `OrderedBiMap`, `lazy_dict`, `update_and_substitute` with its cache |
| `Expr` | atoms.py symbols; metric.py `linear_expand`; ga.py `nc_subs`, `update_and_substitute` |
| `Ga` | ga.py: `blades`, `bases`, index and grade dictionaries, `is_ortho`, all products of basis blades (orthogonal and general), expansion dictionaries, representation changes, `mul`, `wedge`, `hestenes_dot`, `left_contract`, `right_contract`, `scalar_product`, `grade_decomposition`, `get_grade`, `even_odd`, `reverse`, `scalar_part`, `split_multivector`, `grades` |
| `Mv` | mv.py: constructors, `base_rep`, `blade_rep`, `+ - * ^ \| < > == ** << >>`, `scalar`, `get_grade`, `even`, `odd`, `g_invol`, `rev`, `ccon`, `sp`, `qform`, `is_scalar`, `is_vector`, `is_zero`, `blade_coefs`, `inv`, division by scalars |
| `Pseudo` | `E`, `e_sq`, `I`, `I_inv`, `dual`, `undual`, `r_basis`, `mvr`, reciprocal blades, `g_inv`, `ReciprocalFrame`, `func`, `trigsimp` |
| `Blade`, `Norm`, `Functions`, `Inverse` | `is_versor`, `is_blade`, `project_in_blade`, `reflect_in_blade`, `exp`, `rotate_multivector`, `norm2`, `mag2`, `abs_with_hint`, `cross`, `compare`, `hitzer_inverse`, `shirokov_inverse` |
| `Cache` | the attributes of `Mv` that cache its classification, `characterise_Mv`, `is_blade`, `is_versor`, `pure_grade`, `set_coef` |
| `Lt`, `Grad` | lt.py class `Lt`: all constructors except spinors, application, `+ - *`, `det`, `adj`, `inv`, `tr`, `matrix`, `is_singular`, display; ga.py `grad`, `rgrad` |
| `Deriv`, `Connection` | metric.py `dg`, `connect_flg`, `Christoffel_symbols`, `normalize_metric`, `de`; ga.py `blade_derivation`, `pDiff`, `connection` and their caches |
| `Dop` | dop.py `Pdop`, `Sdop` and helper functions; mv.py `Dop` with `Add`, `Mul`, `==`, `consolidate_coefs` |
| `Sm` | ga.py class `Sm`: metric, vectors of the partial derivatives |
| `Session`, `Names` | `dual_mode`, algebra names and the mixing guard, `symbols_list`, `Cl` (both), generic multivectors, metric strings, `g='g'`, vector manifolds |
| `Parser` | _utils/parser.py |
| `Mlt` | lt.py class `Mlt` for scalar valued multilinear functions: constructors from vectors, `Lt`, names and functions, calls, `+ - *`, `pdiff`, `contract`, `cderiv` with and without connection, and the `dslot` state of the algebra |
| `Coef` | mv.py: `components`, `get_coefs`, `blade_coefs` of a list, `is_base`, `proj`, `list`, `collect`, `simplify`, `subs`, `expand`, `__hash__`, comparison with a scalar |
| `Param` | ga.py `parametric`; mv.py `diff` by coordinates and parameters |
| `MvDeriv` | ga.py `make_grad`, `_reciprocal_blade_dict`, for multivectors whose coefficients are symbols |
| `Signature` | metric.py `signature`, `square_root_of_expr`, the parts of `Metric.__init__` that set `sig`, `e_sq_sgn` and `e_norm`; mv.py `norm`, `mag`. SymPy's `sqrt` and `sqf_list` are parameters with laws (`Spec/Root`) |
| `DopExpand` | mv.py: `Dop` from pairs (`Sdop`, `Mv`), `is_scalar`, `Dop_mv_expand`, `components`; dop.py: `Sdop.__call__` on a multivector |
| `SymMatrix` | lt.py: `Symbolic_Matrix`, the string constructor of `Lt`, the property `mode`; a symbol is modelled by an arbitrary value for its name |
| `Operands` | mv.py: the branches of the operators for scalar operands, `__truediv__`, `__rtruediv__` |
| `Print` | mv.py: `_sympystr`; the text of a single term is a parameter, `Simp.apply` is the identity |
| `BladeText` | atoms.py: the plain text of basis blades and bases, with and without wedges; ga.py: `bases_dict` |
| `Capture` | printer.py: `redirect`, `restore`, `Format`, `LatexFormat`, the patched `print`, and the redirection part of `tex`, as a state machine |
| `Tex` | printer.py: `_texify` and the line processing of `tex`; regular expression word characters and white space are those of ASCII |
| `Heap` | metric.py: the forms of the argument `g` and what `Ga(...)` and `normalize_metric` store where; matrices are objects on a heap |
| `DopText` | dop.py, mv.py: plain and LaTeX texts of `Pdop`, `Sdop` and `Dop` over given texts of coefficients, symbols and blades |
| `MvLatex` | mv.py: `_latex` of multivectors in the three formats |
| `Settings` | printer.py: `_WithSettings`, `_FmtResult`, `Fmt(int)`, `enhance_print`, the settings part of `Format`, `_apply_ansi_color`; `Fmt` methods of mv.py and lt.py; SymPy's `Printer.__init__` and `set_global_settings` as documented there; dictionaries on a heap |
| `RSymbols` | metric.py: the names of basis vectors and reciprocal symbols in `Metric.__init__`, `symbols_list` with `indices`; `Metric.de`, `normalize_metric` and ga.py `_update_de_from_rbasis` with substitutions by name; SymPy's `subs` as substitutions one after another, in any order for a dictionary |
| `MltMv` | lt.py class `Mlt` for multivector valued functions: the constructor from functions and values, calls, `+ - * ^ |`, `dd` |
| `MltText` | lt.py: `Mlt._latex`, `Mlt.expand_expr`; the tree of the expanded SymPy expression is given, with the symbols of a term's arguments in the same order in all terms |
| `SymEq` | mv.py: `__eq__` with the simplification explicit; metric.py: `Simp.apply`, `apply_function_list` |
| `Construct` | mv.py: `Mv.__init__`, `_make_*`; ga.py: `Ga.mv`; _utils/kwarg_parser.py |
| `SymbolTex` | printer.py: `GaLatexPrinter._print_Symbol`, `GaLatexPrinter._print_Derivative`, `GaPrinter._print_Derivative`; SymPy's tables of glyphs and `split_super_sub` are parameters |
| `GPrint` | gprinter.py: `gFormat`, `gprint`, `gPrint_Function`, `gxpdf` (without `crop`, `png` and debug messages), `paper_format`; Python's `%` for `%s` and `%%` |
| `FmtList` | printer.py: `Fmt` of lists, tuples and dictionaries, `oprint`, `GaPrinter._print_dict`; the texts of the elements are given |
| `DopOperands` | dop.py: `_BaseDop`, `Pdop` and `Sdop` operators with operands of every kind; mv.py: `Dop.Add`, `Dop.Mul` and the operator methods with numbers, `Mv.__add__`, `__mul__`, … with operators; Python's choice of the reflected method |
| `GaEval` | printer.py: `def_prec`, `GAeval`, `_eval_global_dict`, `_eval_parse_order`; parser.py: `validate_op_order`; Python's `eval` of names, decimal integers, the seven operators and a minus sign in front of an operand |
| `FnForms` | mv.py 2045-2047, 2067-2333: the module level functions, their refusals of numbers, and formulas built from them and the operators; norms, magnitudes and the elementary functions are parameters of the environment (models of them in Norm, Signature, Blade) |
| `Correlation` | mv.py 2050-2064 `correlation`; the rounding by `evalf` is not modelled |
| `Deprecated` | deprecated.py: `MV.setup`, `MV.convert_metric`, `MV.__init__` (the algebra of the new multivector); `MV.Fmt` and `ReciprocalFrame` only forward |
| `Modes` | ga.py:676, 1266-1271, 1421-1454, 1584-1596, 1628-1638: `Ga.Mul` and `Ga.dot` with any mode, deprecated products of basis blades |
| `PowTex` | printer.py `GaLatexPrinter._print_Pow`, `_print_Function` |
| `DopConstruct` | dop.py `Pdop.__init__`, `Sdop.__init__`, with the dictionaries of the program on a heap |
| `DopSimplify` | dop.py `Sdop.simplify`, `Sdop.TSimplify`, mv.py `Dop.simplify`, `Dop.TSimplify` |
| `PrintRref` | mv.py `printrref`, with SymPy's `rref` as a parameter |
| `MltComps` | lt.py `Mlt.comps`; Python's `str` of the values is a parameter |
| `Preset`, `GaNames` | ga.py `Ga.preset`, `Ga.grad_sqr`, mv.py `Mv.Grad`, metric.py `Simp.applymv`, as far as names are concerned |
| `PrintGS` | mv.py `printGS`, `printeigen`; `GramSchmidt`, `eigenvects` and `str(trigsimp(x).evalf(3))` are parameters |
| `MetricInv` | metric.py: `Metric.g_inv`, `g_adj`, `Christoffel_symbols` of objects of class `Metric` |

## What is not modelled

* SymPy itself, in particular `simplify`, `trigsimp`, number recognition; where the code branches on
  such a test the test is a parameter (`SignTests`, `Elementary`, `posDef`, `plus`).
* printing: modelled are the plain and LaTeX texts of multivectors and blades, the texts of differential
  operators, print settings and formats, `gprint`, `Fmt`, and capture and post-processing of output.  Not
  modelled are the methods of `GaPrinter`/`GaLatexPrinter` that print SymPy expressions, apart from symbols,
  derivatives, powers and functions in LaTeX (coefficients are texts) and the ANSI escape sequences of `Eprint`.
* of the `eval` step of `GAeval`: only lines built from names, numbers and the operators of
  `Spec/Parser.lean` are evaluated (`Spec/GaEval.lean`), not arbitrary Python.
* The `gsym` option beyond `e_sq`, the deprecated modules apart from the `MV` class (`Model/Deprecated`), pickling.
* mutation of shared SymPy state and concurrency: galgebra has none of its own.

## Plan per property

| Id | Model | Proof |
|----|-------|-------|
| C01 | `indexes` via `itertools.combinations`, `OrderedBiMap` | induction on n; `List.sublistsLen`-style lemmas |
| C02 | insertion sort with sign and repeat list, `update_and_substitute` | loop invariants, denotation in the Clifford algebra |
| C03 | blade->base, product of bases via `reduce_basis`, base->blade | denotation + triangularity |
| C04 | `reduce_basis`/`reduce_basis_loop` with fuel-free well-founded recursion | termination measure (length, inversions), invariant |
| C05 | corollaries on coefficients of C02/C03 | injectivity of the denotation |
| C06 | `linear_expand`, `blade_coefs` | exterior basis transported along `equivExterior` |
| C07 | vectors in the model | C02/C03 |
| C08, C09 | `_WedgeProductFunction`, `blade_reduce` | denotation in the exterior algebra |
| C10 | bubble loop with contractions | interleaving invariant; grade projection via equivExterior |
| C11, C12 | general path | from C03, C14 |
| C13 | expansion dictionaries | triangular back substitution |
| C14-C17 | grade functions, reverse, even/odd, conjugation | sign identities, Mathlib `reverse`, `involute` |
| C18, C19 | dual modes, class variable as state | scalar square of I; for norms, `rev(E) E = det g`; induction over histories |
| C20-C22, C54 | e_sq, r_basis, g_inv, ReciprocalFrame | determinant of Gram matrix, contraction identities; reciprocal vectors lie in the span because r_i E is a blade of lower grade (`Props/C54Frame`) |
| C23-C26 | inv, hitzer_inverse, shirokov_inverse, pow | algebra in the Clifford algebra; Faddeev-LeVerrier for C25 |
| C27-C30 | commutators, project, reflect, exp | algebra |
| C31 | qform | diagonal of the blade Gram form |
| C32 | lazy_dict as state machine | invariant by induction over lookups |
| C33-C39 | Lt as dictionary | Mathlib `ExteriorAlgebra.map`, `Matrix` |
| C40-C42 | term lists of Pdop/Sdop/Dop | abstract commuting derivations |
| C43-C45 | blade_derivation, pDiff, Christoffel, Sm metric | derivations on the exterior algebra, algebra |
| C46, C50, C51 | counters and caches as state machines | induction over histories; refutations where the code is wrong |
| C47, C48, C53, C55 | string functions on lists of characters; direct | direct |
| C49 | parser.py on lists of characters and tokens | invariant "same text up to parentheses"; for expressions: balanced lines as trees of groups, one operator at a time turns the grouping by `i` operators into the grouping by `i + 1` (`Proofs/ParserTree`, `ParserStage`, `ParserExpr`, `ParserAdd`, `ParserLine`), and a precedence-climbing reader (`Spec/Parser`, `ParserRead`) reads input and output alike; a minus sign in front: the same string with `0` in front is rewritten alike (`ParserMinus`, `MinusRead`); counterexamples outside the restrictions |
| C52 | compare | direct; the docstring is refuted |
| C56 | `metric_symbols_list` on lists of characters | direct, by induction on the rows |
| C57 | `_reciprocal_of_basis_blade` | contraction of blades by reciprocal vectors, Laplace expansion |
| C58 | `Lt(V)` of a versor, isometries | conjugation in the Clifford algebra; the image of a vector is a vector |
| C59 | `pDiff` of products | derivation on the Clifford algebra compatible with the metric |
| C60 | `grad`, `rgrad`, `Dop` | reciprocal frame; commuting derivations and antisymmetry for curl of curl |
| C61 | `pure_grade` | from the grades of the expression; the documented maximum is refuted |
| C62 | `X` argument of `Ga`, `dot_orthogonal` | direct; Gram matrix of tangent vectors; sum of products |
| C63 | `Mlt` constructors, calls, `+ - *` | a relation between a tensor and the multilinear function it means, preserved by every operation; induction over the ways of building one |
| C64 | `Mlt.pdiff`, `contract`, `cderiv`, `dslot` | counterexamples; `cderiv` obeys the product rule for tensor fields, by expanding its loop as a polynomial in the slot symbols; induction over call histories |
| C65 | coefficient access | uniqueness of coefficients over the blade basis; normal form of `linear_expand` |
| C66 | `__hash__` | equal multivectors in blade representation have the same terms |
| C67 | `parametric`, `diff` | coefficients; the chain rule branch is unreachable, the connection branch raises |
| C68 | `signature`, `sig`, `e_sq_sgn` | Sylvester's law from Mathlib (`sigPos`, `sigNeg`); sign of the determinant by diagonalisation |
| C69 | `norm=True`, `square_root_of_expr` | loop invariant over the square-free factors |
| C70 | `make_grad` | frame identities (Euler's formula by induction on blades), non-degeneracy of the pairing of blades |
| C71 | `Dop([(Sdop, Mv)])`, `components`, `Dop_mv_expand`, `is_scalar` | loop invariant: the list of scalar operators and blades acts like the terms read so far |
| C72 | `Symbolic_Matrix`, `Lt(name, mode)` | loop invariant of the filling loops, injectivity of the names, C37 |
| C73 | operators with a scalar operand, division | each branch against the general product in the Clifford algebra; the inverse of C24 |
| C74 | `_sympystr` | invariants of the collecting and the printing loop, order of the index lists; specification `ReadsAs` in `Spec/Print` |
| C75 | texts of blades, `bases_dict` | splitting inverts joining; prefix codes are uniquely decodable; dictionary lemmas |
| C76 | redirection of `sys.stdout` | induction over programs with an invariant for each phase |
| C77 | post-processing of captured output | the substitution on any reading of the text as words and operators; induction over lines with the state of the `##` toggle |
| C78 | metric argument and aliasing | programs as lists of commands on a heap of matrices; a matrix keeps its value under every command that does not touch it, by induction |
| C79 | texts of differential operators | texts as lists of characters; `replace('+ -', …)` only touches the joints because no term has a plus sign followed by a minus sign (`Plain`), by induction on the terms |
| C80 | LaTeX text of a multivector | shares the collecting and sorting of terms with C74; the loop is followed with an invariant that reads the lines written so far, once without blanks and once as TeX tokens |
| C81 | print settings | state machine with a heap of dictionaries; invariant: the heap holds the last global settings and the formats of the objects; the texts equal those of a specification without heap |
| C82 | names of symbols | inductive specification of the documented strings; proof by cases with the lemmas about `split` and `join` |
| C83 | names do not matter | sequential substitution of symbols by name equals the simultaneous one when no reciprocal symbol occurs in a replacement; otherwise the value of the result is computed and contradicts the metric |
| C84 | LaTeX text of a multilinear function | the grouped list has the values at basis vectors as coefficients; the text is followed token by token (`Spec/TexLex`: how TeX reads a formula) |
| C85 | substitution commutes with calculations | calculations are a syntax tree (`Spec/Program`); a ring homomorphism of the coefficients induces one of the Clifford algebras (universal property) that respects blades, hence grades and all products; induction over the tree |
| C86 | coefficients whose equality SymPy does not recognise | the coefficients are a ring of expressions with a homomorphism to their values; C85's homomorphism of Clifford algebras carries the library's result to the mathematical value |
| C87 | constructors of multivectors | arguments as an inductive type, exceptions as values; the coefficients of the result by the linear independence of blades (C65) and the names of C48 |
| C88 | divergence and Laplacian | Jacobi's formula for derivations gives the trace of the connection; multiplication by the pseudoscalar turns the double divergence into the double curl of C60 |
| C89 | names and derivatives in print | the placeholders of `translate` as separate symbols; `str.replace` on texts agrees with `replace` on rows of characters and placeholders; equal neighbours by `List.splitBy` |
| C90 | calculations in another basis | `Spec/Frame` defines the new metric and rewriting with operations of the library; the algebra homomorphism from the new Clifford algebra commutes with grades, so with all operations; induction over calculations |
| C91 | gprint and gxpdf | formatting a piece uses up its arguments, whatever follows; lines of a formula as a list; invariant of the state over all histories |
| C92 | lists in LaTeX, oprint | the tokens TeX reads are those of the specified array; the width is the maximum over titles |
| C93 | operands of every kind with differential operators | each object acts on fields of the Clifford algebra; every method is shown to be the sum or composition of the actions, by cases on the kinds |
| C94 | sessions with def_prec and GAeval | the state after a history is that of the last legal call; C49 for the string; induction on the expression for its value |
| C95 | scripts in two bases | a simulation: the homomorphism of Clifford algebras of C90 is injective, keeps grades and maps the pseudoscalar to its determinant multiple, so every operation and test commutes with it; induction on scripts and on passes through loops |
| C96 | programs with fields in two coordinate systems | the connection the library computes is compatible with the metric and torsion-free (C44, C60), so by Koszul's formula the connections of both coordinate systems agree; the vectors of the gradient are reciprocal to the tangent vectors; induction on programs |
| C97 | `exp` and `rotate_multivector` with Mathlib's complex functions | even and odd parts of the series are the cosine and sine series (Mathlib); every coefficient is a linear functional on the Clifford algebra; derivatives of cosine and sine of a square root |
| C98 | `Sm`, `pDiff`, the connection, `project_in_blade`, `grad` of two algebras of different dimension | Gauss formula: the Levi-Civita connection of the submanifold differs from the pulled-back connection by terms normal to the tangent space (Koszul formula); normal terms are annihilated by contraction with the tangent blade; in `InSpace` the homomorphism is injective, so functions of the space that vanish on the submanifold are outside that form (`C98_flat` has no such restriction) |
| C99 | the functions of mv.py 2045-2333 and `Ga.com` as an expression language `Formula`, with exceptions as values | induction on the formula: a type system with exceptions is sound (`Fits`), and the value is preserved (`Formula.value`), from the specifications of the methods |
| C100 | `correlation`: averages, centred vectors, dot product and norms, over the reals in exact arithmetic | Cauchy-Schwarz inequality in a Euclidean space; counterexample for row vectors |
| C101 | `Lt` of two algebras whose bases are related by `gram`/`rewriteIn` (`Spec/LtFrame`) | the transformations are the same iff their matrices are similar by the matrix of the basis; the homomorphism of `Spec/Frame` commutes with outermorphisms |
| C102 | `mvStr` (C74), `parseLine` (C49), `Shell.gaEval` (C94); the text of a term is specified in `Spec/ReadBack` | the text is the text of an expression tree in normal form; C94 gives its value, which is the sum of the terms |
| C103 | the products, `rev`, `gInvol`, `dual` (C08, C10, C15, C18) | the laws in the Clifford algebra by induction along exterior products of vectors (`Proofs/InnerLaws`), carried over by the theorems about the single products |
| C104 | `MltMv`: `Mlt` with multivector values | the substitution of vectors into a multivector with symbols as a homomorphism of Clifford algebras; the relation between a value and the function it means is preserved by every operation; for `dd` the derivative by the coefficients of a polynomial in the slot symbols; counterexamples for vector values and for factors that are not multilinear functions |
| C105 | the operators of C60 and the duals of C18 | the derivative of a pseudoscalar is a pseudoscalar, and by the product rule (metric-compatible connection) it vanishes when the square is ±1; then multiplication by the pseudoscalar exchanges `^` and `<` (C103); with C60, `grad^(grad^F) = 0`, the divergence statements follow |
| C106 | `Model/Deprecated`: the class attributes with the algebra each belongs to, on top of the session model of C46; `convert_metric` with `int` | invariants over all histories; counterexamples for `MV.grad`, `metric=''` and `curv=(None, x)` |
| C107 | `Mv.isVersor`, `Mv.isBlade` of `Model/Blade` | products of non-null vectors pass by induction; the converse is the theorem of Cartan and Dieudonné, proved in the Clifford algebra over any field of characteristic not 2 along an orthogonal basis (`Proofs/Versor`); blades by contraction with linear forms (`Proofs/Simple`); versors form a group on which `qform` is multiplicative (`Props/C107Group`); counterexamples for degenerate metrics and for grades 3 to n-2 |
| C108 | `Mv.spRev`, `Mv.qform` of `Model/Mv`, `Mv.norm` of `Model/Signature`, `Mv.projectInBlade` of `Model/Blade` | the scalar part of `x̃ y` as a bilinear form (`Proofs/Norm`); the two parts of a product with a vector are orthogonal; Hadamard's inequality by induction over the vectors; projections are outermorphisms of self-adjoint matrices; Gram determinants by Laplace expansion along the contraction with the first vector |
| C109 | `Model/Modes`: `Ga.Mul` and `Ga.dot` with any string as mode, and the deprecated products of basis blades | case distinction on the mode; the products of expressions (C02-C11) |
| C110 | no new model; linear algebra of exterior products: `v1^...^vk` vanishes iff the vectors are dependent (contraction by a linear form, induction on the list), an element annihilated by independent vectors has their product as a factor; sums, complements, intersections and images of subspaces follow from the product rules of C103 and from Mathlib's orthogonal complements; contractions (`C110Con`) by induction on the vectors of the first blade: a linear form that vanishes on the common kernel of others is a combination of them |
| C111 | no new model (`Lt.ofVersor` of C58, versors of C107) | reflections as matrices; a versor and the matrix of its sandwich product determine each other up to a factor (an element that commutes with all vectors up to the grade involution is a scalar); every isometry is a product of reflections by induction on the dimension of the fixed space (Cartan, Dieudonne, also for null differences); determinants of reflections by the matrix determinant lemma |
| C112 | `Model/PowTex`: `_print_Pow` and `_print_Function`; texts of parts and the decisions of SymPy are inputs | `Spec/TexFormula`: a stack machine for how TeX groups a formula; each template is read in one way in every context, so readings compose; case distinction on the exponent |
| C113 | `Model/DopConstruct`: the constructors with dictionaries on a heap | invariants over all histories: lists of operators only grow, a dictionary changes by assignment only |
| C114 | `Model/DopSimplify`; specification `Spec/OpCalc`: calculations with operators and their mathematical meaning | the meaning of terms of `Proofs/Terms`, now with values of coefficients; induction over calculations |
| C115 | `Model/SymbolTex`, `Model/DopText`; specification `Spec/TexFormula`, `Spec/DerivTex`: what TeX should read | texts that are read the same whatever follows (`ReadsAs`) are put together |
| C116 | `Model/Mv` (`inv`, `zpow`), `Model/Inverse`, `Model/Operands` (`divide`) | values in the Clifford algebra, where inverses are unique; powers of units |
| C117 | `Model/PrintRref`; specification `Spec/LinearEq`: how one reads a linear equation | the words of a line; SymPy's `rref` is any matrix that comes from the given one by row operations |
| C118 | `Model/MltComps`; specification `Spec/MltComps`: the place of an index tuple, basis vectors as arguments | the order of `itertools.product` by induction on the number of arguments; the value of calls from C63; a multilinear function is given by its values at basis vectors |
| C119 | `Model/Preset`, `Model/GaNames`: the order in which names and attributes are looked up, and the names that the source files define | the claim is false of the code; case analysis over the entries of `Ga.presets` |
| C120 | `Model/PrintGS`: the loops with their variables | induction over the list of vectors; texts are cut at the first comma or bracket |
| C121 | `Model/Lt` | the matrix of a transformation; Mathlib's characteristic polynomial; volumes of C108 |
| C122 | `Model/Deriv`, `Model/Dop` | second derivatives in both orders, for the connection of C43/C59; from the product rules, metric compatibility and vanishing torsion of the modelled connection, with a concrete curved metric |

C25 is proved by building a faithful matrix representation of size `2^((n+1)/2)` of the Clifford algebra
over an extension of the field (Kronecker products of 2x2 matrices, `Proofs/Gamma.lean`), in which the
scalar part is the normalised trace; the loop of `shirokov_inverse` is then the Faddeev-LeVerrier
iteration, which is proved from the derivative of the characteristic polynomial (`Proofs/Faddeev.lean`).

The printing of SymPy expressions and SymPy itself cannot usefully be expressed in the model and are left out.

## Findings: where the code does not do what a user would rely on

Each is proved as a `..._counterexample` theorem (or named otherwise) unless marked (reading).

* C19: a constructor (`Cl`) that raises after setting the dual mode has changed it.
* C16: `even`, `odd`, `g_invol`, `ccon` of a multivector in base representation raise `KeyError`
  (`C16_base_rep_raises`); so do `hitzer_inverse` and `is_versor`, which call them.
* C22: `Metric.g_inv` raises `TypeError` for every orthogonal metric (it calls the matrix `self.g`), and so does
  `Christoffel_symbols(mode=2)` of an object of class `Metric` (`C22_metric_counterexample`,
  `C44_metric_counterexample`); `Ga` has its own `g_inv`, which is right.
* C25: `shirokov_inverse` of a multivector in base representation returns a multivector that is not an
  inverse; in dimension 0 it raises `UnboundLocalError`; its `N / k` is a float (reading).
* C28: `is_blade` accepts multivectors that are not blades (`C28_non_blade_accepted`).
* C33: `Lt` applied to a multivector in base representation gives a wrong image.
* C38: `Lt.tr` with `norm=True` is the sum of `M_kk / N_k`; coordinate dependent entries are differentiated.
* C39: missing images of partial dictionaries are read as 0 by application, as `e_i` elsewhere, and
  `matrix` raises.
* C40: `_consolidate_terms` keeps terms whose coefficients cancel; `Pdop({x: 0}) != Pdop({})`.
* C42: composition of operators in curved spaces is not the composition of their actions.
* C44: `Christoffel_symbols(mode=2)` with `norm=True` mixes the two bases.
* C45: a submanifold whose functions contain base coordinates gets a wrong metric (sequential `subs`);
  a map given as a multivector always raises `UnboundLocalError`; a base algebra without coordinates
  gives a `TypeError`.
* C47: `kingdon.Cl` in one dimension has no basis vectors; `Cl(1)` names its vector `e_0`.
* C48: coefficient names of generic multivectors collide from twelve numbered basis vectors on, or with
  coordinates such as `x, y, xy`.
* C49: `GAeval` raises on `A|B^C|D`, `A|B|C|D`, `A^B*C^D`, `A|B+C|D`, and rewrites `X*(A*B+C*D)` to
  `X*(A*B)+(C*D)`; a string with only one kind of parenthesis, such as `(A*B`, passes the balance check.
  With the order inner products, `*`, `^` it rewrites `X+A|B^A|B*C` to `X+(A|B)^((A|B)*C)`, which Python reads
  as `(X+(A|B))^((A|B)*C)`.
* C50: `set_coef` leaves the cached classification stale.
* C51: a second call of `connection` with the same arguments raises `UnboundLocalError`.
* C52: `compare(A, B)` returns the ratio `A/B`, not the documented `B/A`.
* C56: asymmetric metric strings are accepted; the default metric raises in dimension 0; `g='g'` is not
  symmetric.
* C61: `pure_grade` of a mixed multivector is minus the last grade met, not minus the largest.
* C63: in a non-orthogonal algebra calling an `Mlt` multiplies each argument's factor by `E**2`;
  `Mlt(name, ga, nargs=r)` after an `Mlt` of higher rank uses stale slots.
* C64: `Mlt.pdiff` and `contract` give 0 for constant components and leave `Ga.dslot` changed, after which
  derivatives of multivectors ignore the connection.
* C29: the documented sign of `reflect_in_blade`, `(-1)^(s(r+1))`, is not the one used; the code's
  `(-1)^(r(s+1))` is right (`C29_vector`, `C29_documented_formula_counterexample`).
* C65, C66: coefficients and hashes of multivectors in base representation are those of the base symbols.
* C67: `Mv.diff` and `Mv.pdiff` pass `self.obj` to `Ga.pDiff`, which calls `A.is_scalar()` when there is a
  connection; SymPy expressions have no such method, so in curvilinear coordinates both always raise.
* C67: `parametric` has no effect on `diff`: it maps coordinates to functions, and `diff` looks the
  parameter up among the coordinates.
* C68: `sig` of an orthogonal metric is the unparsed hint, because `signature` is called only for non-numeric
  off-diagonal entries; zero squares count as negative; hints are not checked, negative integers pass.
* C69: `square_root_of_expr` can return the negative root.
* C70: with a connection `make_grad` of a generic multivector cannot be applied: `pDiff` looks the symbol up
  among the coordinates and raises.
* C71: the components of an operator on the left operate on the right.
* C72: with braces in the names of coordinates two entries of a general matrix can be the same symbol; the
  deprecated property `mode` of `Lt(name, mode='s')` is `'g'` in most non-Euclidean algebras.
* C73: in base representation `A < c` and `c > A` take the coefficient of `1` of the bases, not the scalar part.
* C75: with wedges switched off and twelve or more vectors `e_1, e_2, …`, `e_1^e_2` and `e_12` have the same text; `bases_dict()` loses blades then, and for subscripts without digits it has only one entry.
* C76: `tex` clears `latex_str` before `restore` appends the buffer to it again, and `Format_cnt` is never reset: after a first document `Format` no longer redirects and `tex` raises; with `LatexFormat` the next document repeats the text of the previous one.
* C77: `tex` translates everything left of the last `=`, including the `*` of a `\begin{align*}` that is there, and then no longer recognises the environment; empty lines in `##` listings are lost.
* C78: `Ga(..., g=m, norm=True)` normalises the caller's matrix `m` in place, so that a second algebra from `m` has another connection; later assignments to `m` change the metric of the algebra but nothing derived from it; an `ImmutableMatrix` is taken for the list of squares in its first row.
* C79: the LaTeX text of a `Dop` writes a blade twice if its scalar operator is 1 (`if` instead of `elif`, mv.py:1943); the plain text of a mixed derivative depends on the order in which its dictionary was made; `Pdop({x: 0, y: 1})` is written like `Pdop({x: 1, y: 1})`.
* C81: `enhance_print(None)` does not turn colours off; `A.Fmt('2', 'A')`, as documented, prints with format 1 (and raises `TypeError` in LaTeX).
* C83: basis vectors whose names have no underscore (`Ga('a b', ...)`) get wrong derivatives if the metric is not constant and not orthogonal, or if `norm=True` and a basis vector has a negative square: the reciprocal symbols have the same names as the basis vectors.
* C84: the LaTeX text of a tensor of rank 2 or more raises UnboundLocalError for the zero tensor (such as the covariant derivative of a constant one), is only the coefficient if the expression is one product, joins a coefficient such as `\alpha` with the next symbol (`\alphaa_{1}^{x}`), and ends with a spurious `\\` if `lcnt` divides the number of components and is neither 1 nor that number.
* C86: a multivector with the value 1 that SymPy must simplify to see it, such as `ga.mv(sin(x)**2 + cos(x)**2)`, equals `ga.mv(1)` but not `1`, and has another hash than `ga.mv(1)`.
* C87: `ga.mv('A', -1)` is not rejected but makes a pseudoscalar, `ga.mv(3, 'scalar', foo=1)` accepts the unknown keyword, `ga.mv('A B', 2)` raises TypeError (`' ' not in 2`) although `ga.mv('A', 2)` works, and `ga.mv('A')` raises IndexError.
* C89: in LaTeX a symbol named `\varphi` or `\Theta` is printed as `\var\phi` or `\Th\eta`, which TeX does not know; `Theta` is printed as Th followed by a small eta; with ten glyphs in one name the tenth is printed as the first followed by 0. As plain text the derivative of f + g is printed `D{x}f + g`.
* C91: a percent sign in a string makes `gprint` raise an exception; without LaTeX, two backslashes in a string print `\end{equation*}`; `gxpdf` empties the collected text before it opens the file, so a wrong directory loses everything; its default `rm` deletes the TeX file and leaves the auxiliary files, whose names are given with a blank at the end.
* C92: `Fmt([], 1)` prints `\begin{array\\ \end{array}`; `Fmt([x])` opens an array and never closes it; `Fmt` of a dictionary prints only the keys.
* C93: `c < D` and `c > D` with a number `c` are computed by Python as `D > c` and `D < c`, so the operator is applied to the number, whereas `Mv(c) < D` is an operator; an `Sdop` times a `Dop` that acts to the left is a multivector, whereas a `Dop` in its place raises an exception; `Pdop + Pdop`, `Pdop - Pdop`, `Dop + Sdop`, `Dop * Pdop` and `Dop * Sdop` raise exceptions (`C93_addable`, `C93_mul_defined`), except that a `Dop` without terms times a `Pdop` is the zero multivector.
* C94: `GAeval('2^3')` is `1`, Python's bitwise operator, because numbers in the string are Python integers.
* C100: `correlation` of row vectors subtracts the average only from the first entry, because it loops over `u.shape[0]`: the result for (1, 2, 3) and (3, 4, 5) is not 1 (`C100_row_counterexample`). Also by reading: `.evalf(dec)` applies to the denominator only.
* C102: `GAeval(str(B))` of `B = e_x^e_y + e_y^e_z` raises an exception (`C102_raises_counterexample`).
  `GAeval(str((a*b + c*d)*e_x))` is `a*b + c*d*e_x`, without an exception (`C102_wrong_counterexample`): the added
  parentheses are taken for the ones that were there.  `a**2*e_x` is rewritten to `a**(2*e_x)`, and `1.5*e_x` to
  `1.(5*e_x)`, which is no expression (`C102_power_counterexample`, `C102_float_counterexample`).
* C104: `Mlt(value, ga, nargs)` with a vector value makes the one-argument function `value | a_1`: with
  `F = Mlt(lambda a: a, ga)`, `F + F` has the scalar values `2 a | a`.  `F * X`, `F ^ X` and `F | X` with a
  multivector `X` all give `X * F`.  `F ^ G` and `F | G` of two scalar valued functions raise.
* `deprecated.MV`: `MV.grad` keeps the gradient of an earlier algebra when `setup` is called without coordinates; `metric=''` and `metric='[]'` raise; a metric is dropped when only the second element of `curv` is given (C106).
* `Mlt.cderiv` is wrong when the basis vectors are not orthogonal, even for constant metrics (C64).
* C107: for a degenerate metric `is_versor` accepts multivectors that are no products of non-null vectors, although its docstring calls the tests sufficient (`C107_versor_counterexample`: `1 + e_1^e_2` with the zero metric).
* C107: `is_blade` answers `True` for non-blades of every grade `r` with `3 ≤ r ≤ n - 2`, whatever the metric (`C107_blade_counterexample`); its docstring allows this only for `n ≥ 2r`.
* C109: `dot_product_basis_blades` in an algebra that is not orthogonal returns wrong products, without an exception: 0 for two basis vectors that are not orthogonal (`C109_not_orthogonal_counterexample`).
* C112: the square of a symbol with a name of several letters is printed with the exponent on the last letter (`C112_name_counterexample`: `xy^{2}`, which TeX reads as `x y^2`); a base with a superscript and `cdot` in its text gives a double superscript, which TeX refuses (`C112_cdot_counterexample`); with `fold_frac_powers` the power of a sum has no brackets (`C112_fold_counterexample`: `x + y^{3/2}`).
* C112: printing a function with a percent sign in its name raises an exception (`C112_percent_counterexample`); a function named `frac` is printed with one argument of `\frac` (`C112_frac_counterexample`).
* C113: `Pdop(d)` keeps the dictionary of the caller: after `d[x] = 2` the operator is another one, with the old attribute `order` (`C113_alias_counterexample`).
* C114: `Dop.TSimplify` raises `TypeError` for every operator with a multivector coefficient and drops the complement flag (`C114_tsimplify_counterexample`); `==` of operators does not simplify coefficients, so that equal operators may count as different (`C114_eq_counterexample`).
* C115: the second derivative by a coordinate that is printed with a superscript is printed with two superscripts, which TeX does not read (`C115_superscript_counterexample`).
* C116: `inv` (and so `/` and negative powers) raises for multivectors that have an inverse (`C116_inv_counterexample`), `A**-2` can be defined where `A**-1` raises (`C116_power_counterexample`).
* C117: `printrref` prints a sum as coefficient without parentheses, `1x + a + by = 0` (`C117_sum_counterexample`), and prints no left side for a matrix with one column (`C117_column_counterexample`).
* C118: `Mlt.comps` raises IndexError for functions without arguments, such as contractions (`C118_scalar_counterexample`), and lists wrong values in algebras that are not orthogonal, because calls are wrong there (`C118_nonorthogonal_counterexample`, compare C63).
* C119: `Ga.preset` raises an exception for every argument: `Ga.set_simp` does not exist, the metrics of three entries contain names that are not defined, and the constructor has no keyword `I` (`C119_preset_counterexample`, `C119_needs`). `Ga.grad_sqr`, `Mv.Grad` and `Simp.applymv` raise for every argument (`C119_grad_sqr_counterexample`).
* C120: `printGS` raises UnboundLocalError for vectors without components (`C120_gs_empty`); `printeigen` prints the line of an eigenvalue as a tuple with parentheses and quotes, left over from Python 2 (`C120_eigen`).
* C81: `GaLatexPrinter.latex([x, y], **settings)` prints the elements of a list with `latex(x)` and drops the
  settings of the call (`C81_latex_list_counterexample`); for a single object they are used.
* (reading) `Metric.g_inv` with `g='g'` is a matrix of unrelated symbols.
* (reading) `mat_rep.is_versor` is never called;
  `Mlt.dd` stores an `Mv` as value; `Dop.TSimplify` drops `cmpflg`;
  `grad_sqr` prints debugging output; `pDiff` with a connection and a symbol that
  is not a coordinate raises `ValueError`.
