# Source of properties.jsonl.  Run: python3 tools/props.py
import json, os
P = []
def p(id, title, statement, quantifier, why, anchors):
    P.append(dict(id=id, title=title, statement=statement, quantifier=quantifier,
                  why_tests_cant=why, anchors=anchors))

p("C01", "Basis blade enumeration is complete and duplicate free",
  "For an n-dimensional algebra the exposed basis blades are exactly the strictly increasing index tuples over the n basis vectors, each listed once: C(n,r) of grade r, 2^n in total, listed grade by grade; the index<->blade maps are mutually inverse and the grade map returns the number of basis vectors in the blade.",
  "every dimension n, every grade r, every index tuple",
  "tests look at n=2,3,4; the statement ranges over every n",
  ["galgebra/ga.py:Ga.indexes", "galgebra/ga.py:Ga.blades", "galgebra/ga.py:Ga.indexes_to_blades_dict", "galgebra/ga.py:Ga.blades_to_grades_dict", "galgebra/ga.py:OrderedBiMap", "galgebra/ga.py:GradedTuple"])
p("C02", "Geometric product is the Clifford product (orthogonal basis)",
  "For an orthogonal metric, A*B as computed by Ga.mul denotes the product of the denotations of A and B in the Clifford algebra of the quadratic form given by the metric tensor g.",
  "every dimension, every diagonal metric over every commutative coefficient ring in which 2 is invertible, every pair of multivectors",
  "the blade multiplication table has 4^n entries and coefficients are symbolic; tests sample a few of them",
  ["galgebra/ga.py:_GeometricProductFunction.of_basis_blades", "galgebra/ga.py:update_and_substitute", "galgebra/ga.py:Ga.mul", "galgebra/mv.py:Mv.__mul__"])
p("C03", "Geometric product is the Clifford product (arbitrary symmetric metric)",
  "For a non-orthogonal metric, A*B (blade expansion, product of bases, reduction, conversion back to blades) denotes the Clifford product of the denotations of A and B.",
  "every dimension, every symmetric metric tensor, every pair of multivectors",
  "unbounded dimension and symbolic metric entries",
  ["galgebra/ga.py:_GeometricProductFunction.of_basis_blades", "galgebra/ga.py:_BaseGeometricProductFunction", "galgebra/ga.py:Ga.blade_to_base_rep", "galgebra/ga.py:Ga.base_to_blade_rep"])
p("C04", "Normal ordering of products of basis vectors terminates and is correct",
  "Ga.reduce_basis terminates on every list of basis vector indices and returns coefficients and strictly increasing index lists whose linear combination denotes the Clifford product of the input list.",
  "every index list of any length with any repetitions, every symmetric metric",
  "the rewriting loop has no obvious bound; tests try short lists",
  ["galgebra/ga.py:Ga.reduce_basis", "galgebra/ga.py:Ga.reduce_basis_loop"])
p("C05", "The geometric product makes multivectors an associative unital algebra",
  "(A*B)*C = A*(B*C), A*(B+C) = A*B + A*C, (A+B)*C = A*C + B*C, 1*A = A*1 = A, (c*A)*B = c*(A*B) = A*(c*B), A-A = 0, as equality of every blade coefficient.",
  "all multivectors A, B, C and scalars c, in every dimension and metric",
  "algebraic law over an infinite domain",
  ["galgebra/mv.py:Mv.__mul__", "galgebra/mv.py:Mv.__add__", "galgebra/mv.py:Mv.__sub__", "galgebra/ga.py:Ga.mul"])
p("C06", "Multivector equality is sound and complete",
  "Two multivectors denote the same element of the Clifford algebra if and only if all of their basis blade coefficients (blade_coefs) agree: no two different coefficient lists are identified and no element has two different coefficient lists.",
  "all pairs of multivectors in every dimension and metric (degenerate metrics included)",
  "needs linear independence of all 2^n blades for every metric",
  ["galgebra/mv.py:Mv.__eq__", "galgebra/mv.py:Mv.blade_coefs", "galgebra/mv.py:Mv.get_coefs", "galgebra/metric.py:linear_expand"])
p("C07", "Vectors square to the metric",
  "For a vector v = sum v_i e_i, v*v is the scalar sum g_ij v_i v_j; for vectors a, b: a|b = (a*b+b*a)/2 = sum g_ij a_i b_j, a^b = (a*b-b*a)/2 and a*b = a|b + a^b.",
  "all vectors, all dimensions, all metrics",
  "symbolic identity in n variables for every n",
  ["galgebra/mv.py:Mv.__mul__", "galgebra/mv.py:Mv.__or__", "galgebra/mv.py:Mv.__xor__"])
p("C08", "Wedge product is the exterior product",
  "A^B denotes the exterior product of A and B; it does not depend on the metric.",
  "all multivectors, all dimensions, all metrics",
  "sign bookkeeping for every pair of the 2^n blades",
  ["galgebra/ga.py:_WedgeProductFunction", "galgebra/ga.py:Ga.blade_reduce", "galgebra/mv.py:Mv.__xor__"])
p("C09", "Wedge laws",
  "^ is associative, bilinear, A_r^B_s = (-1)^(rs) B_s^A_r, v^v = 0 for vectors, the wedge of grades r and s has only grade r+s and vanishes for r+s>n.",
  "all multivectors, grades and dimensions",
  "algebraic laws over an infinite domain",
  ["galgebra/ga.py:_WedgeProductFunction", "galgebra/mv.py:Mv.__xor__"])
p("C10", "Inner products are grade projections of the geometric product (orthogonal basis)",
  "For homogeneous A_r, B_s: A_r|B_s = <A_r B_s>_|r-s| (0 if r=0 or s=0), A_r<B_s = <A_r B_s>_(s-r) (0 if r>s), A_r>B_s = <A_r B_s>_(r-s) (0 if r<s), scalar product = <A_r B_s>_0; extended bilinearly.",
  "all multivectors, all diagonal metrics, all dimensions",
  "the bubble-sort-with-contraction loop branches on every index pattern",
  ["galgebra/ga.py:_SingleGradeProductFunction._of_basis_blades_ortho", "galgebra/ga.py:_HestenesDotFunction", "galgebra/ga.py:_LeftContractFunction", "galgebra/ga.py:_RightContractFunction", "galgebra/ga.py:_ScalarProductFunction"])
p("C11", "Inner products are grade projections of the geometric product (non-orthogonal basis)",
  "The same four statements as C10 for the non-orthogonal code path.",
  "all multivectors, all symmetric metrics, all dimensions",
  "symbolic metric, unbounded dimension",
  ["galgebra/ga.py:_SingleGradeProductFunction._of_basis_blades_non_ortho"])
p("C12", "Orthogonal and non-orthogonal code paths agree",
  "On a diagonal metric the orthogonal algorithms and the general (non-orthogonal) algorithms for *, |, <, > and scalar product give the same coefficients.",
  "all diagonal metrics, all multivectors, all dimensions",
  "differential property over an infinite domain",
  ["galgebra/ga.py:_GeometricProductFunction.of_basis_blades", "galgebra/ga.py:_SingleGradeProductFunction.of_basis_blades"])
p("C13", "Blade and base representations are mutually inverse",
  "Converting a multivector from blade representation to base representation and back (and the other way round) returns the same coefficients, and both representations denote the same Clifford element; converting something already in the target representation changes nothing observable.",
  "all multivectors, all symmetric metrics, all dimensions",
  "triangular substitution over 2^n symbols for every n",
  ["galgebra/ga.py:Ga.blade_expansion_dict", "galgebra/ga.py:Ga.base_expansion_dict", "galgebra/ga.py:Ga.base_to_blade_rep", "galgebra/ga.py:Ga.blade_to_base_rep", "galgebra/mv.py:Mv.base_rep", "galgebra/mv.py:Mv.blade_rep"])
p("C14", "Grade decomposition",
  "The parts returned by grade_decomposition / get_grade add up to A, the grade-r part contains only grade-r blades, get_grade is linear and idempotent, <<A>_r>_s = 0 for r != s, and grades(A) lists exactly the grades with a term.",
  "all multivectors and grades",
  "law over an infinite domain",
  ["galgebra/ga.py:Ga.grade_decomposition", "galgebra/ga.py:Ga.get_grade", "galgebra/ga.py:Ga.grades", "galgebra/mv.py:Mv.get_grade", "galgebra/mv.py:Mv.scalar"])
p("C15", "Reverse is an involutive anti-automorphism",
  "rev(rev(A)) = A, rev(A*B) = rev(B)*rev(A), rev(A+B) = rev(A)+rev(B), and on a product of vectors it reverses the factors.",
  "all multivectors, metrics, dimensions",
  "law over an infinite domain",
  ["galgebra/ga.py:Ga.reverse", "galgebra/mv.py:Mv.rev"])
p("C16", "Even/odd split and grade involution",
  "A = even(A)+odd(A); products respect parity; g_invol is an involutive automorphism of the geometric product.",
  "all multivectors, metrics, dimensions",
  "law over an infinite domain",
  ["galgebra/ga.py:Ga.even_odd", "galgebra/mv.py:Mv.even", "galgebra/mv.py:Mv.odd", "galgebra/mv.py:Mv.g_invol"])
p("C17", "Clifford conjugation",
  "ccon(A) = rev(g_invol(A)) = g_invol(rev(A)), ccon(ccon(A)) = A, ccon(A*B) = ccon(B)*ccon(A).",
  "all multivectors, metrics, dimensions",
  "law over an infinite domain",
  ["galgebra/mv.py:Mv.ccon"])
p("C18", "dual and undual are mutually inverse in every dual mode",
  "A.dual() is I*A, -I*A, A*I, -A*I, Iinv*A, -Iinv*A, A*Iinv, -A*Iinv in the modes +I, -I, I+, I-, +Iinv, -Iinv, Iinv+, Iinv-; in odd dimensions the side of the pseudoscalar does not matter, in even dimensions the two duals differ by g_invol(). For each of the eight dual modes, A.dual().undual() = A and A.undual().dual() = A when the normalised pseudoscalar squares to +1 or -1; dual maps grade r to grade n-r, and multiplies every scalar product sp(A, B, 'rev') and quadratic form by one and the same sign, so that the norm of a dual is the norm of the multivector.",
  "all multivectors, all eight modes, all non-degenerate metrics and dimensions",
  "eight modes times unbounded dimension",
  ["galgebra/mv.py:Mv.dual", "galgebra/mv.py:Mv.undual", "galgebra/ga.py:Ga.dual_mode"])
p("C19", "The dual mode is exactly the last valid setting",
  "After any sequence of dual_mode calls (valid and invalid) and interop constructor calls, the active mode is the one set by the last successful call, an invalid mode raises and changes nothing, and the active mode is always one of the eight documented ones.",
  "every finite history of calls",
  "history dependent global state",
  ["galgebra/ga.py:Ga.dual_mode", "galgebra/interop/_cl.py", "galgebra/interop/kingdon.py", "galgebra/interop/__init__.py"])
p("C20", "Pseudoscalar square",
  "The product E of all basis vectors satisfies E*E = (-1)^(n(n-1)/2) det(g) (wedge form, any symmetric metric); the normalised pseudoscalar I is E() divided by the root of E()*E() or of its negative, and squares to +1 or -1; I_inv*I = 1. In odd dimensions E()*A == A*E() for every multivector A, in even dimensions E()*A == A.g_invol()*E(). If det(g) is not zero, the multivectors that commute with all vectors are exactly c + d*E() in odd dimensions, and exactly the scalars in even dimensions.",
  "all dimensions and metrics",
  "determinant identity for every n",
  ["galgebra/ga.py:Ga.e_sq", "galgebra/ga.py:Ga.__init__", "galgebra/ga.py:Ga.E", "galgebra/ga.py:Ga.I"])
p("C21", "Reciprocal basis",
  "The reciprocal vectors satisfy r_i | e_j = delta_ij (orthogonal basis) or delta_ij * E^2 (non-orthogonal basis, the documented normalisation). The components of the normalised reciprocal vectors are the rows of g_inv, ReciprocalFrame of the basis vectors gives the same vectors, and every vector a is the sum of the (a|r_i)*e_i and of the (a|e_i)*r_i.",
  "all dimensions and non-degenerate metrics",
  "sign pattern for every i, j, n",
  ["galgebra/ga.py:Ga.r_basis", "galgebra/ga.py:Ga.r_basis_mv", "galgebra/ga.py:Ga.mvr"])
p("C22", "Inverse metric",
  "g_inv * g is the identity matrix, both for the orthogonal and for the non-orthogonal construction from reciprocal vectors; it is defined exactly if det(g) is not zero. This holds for algebras (Ga) and for objects of class Metric; with gsym, Metric.g_inv is the inverse if the determinant symbol has the value det(g).",
  "all dimensions and non-degenerate symmetric metrics",
  "unbounded dimension, symbolic entries",
  ["galgebra/ga.py:Ga.g_inv", "galgebra/metric.py:Metric.g_inv"])
p("C23", "inv returns a two-sided inverse",
  "Whenever A.inv() returns B without raising and without dividing by zero, A*B = B*A = 1.",
  "all multivectors and metrics",
  "the three branches depend on symbolic conditions",
  ["galgebra/mv.py:Mv.inv", "galgebra/mv.py:Mv.__truediv__"])
p("C24", "hitzer_inverse returns an inverse for n<=5",
  "For n<=5 whenever A.hitzer_inverse() returns B, A*B = 1 and B*A = 1: the closed formula makes A times the numerator a scalar.",
  "all multivectors with arbitrary coefficients, all metrics, n = 0..5",
  "identity of degree up to 8 in up to 32 symbolic coefficients and a symbolic metric",
  ["galgebra/mv.py:Mv.hitzer_inverse"])
p("C25", "shirokov_inverse returns an inverse",
  "Whenever A.shirokov_inverse() returns B, A*B = 1 (exact arithmetic); it raises exactly when A has no inverse.",
  "all n, all metrics, all multivectors",
  "iteration count and degree grow like 2^(n/2)",
  ["galgebra/mv.py:Mv.shirokov_inverse"])
p("C26", "Integer powers",
  "A**0 = 1, A**(m+k) = A**m * A**k for non-negative integers; A**(-m) is the inverse of A**m when inv succeeds.",
  "all multivectors and integer exponents",
  "unbounded exponent",
  ["galgebra/mv.py:Mv.__pow__"])
p("C27", "Commutator and anticommutator",
  "A*B = (A>>B) + (A<<B), A>>B = -(B>>A), A<<B = B<<A, the commutator satisfies the Jacobi identity and is a derivation of the geometric product. The commutator with a bivector keeps grades and is a derivation of each of * ^ | < >; on a vector v it is B>>v = -(v<B).",
  "all multivectors and metrics",
  "law over an infinite domain",
  ["galgebra/mv.py:Mv.__rshift__", "galgebra/mv.py:Mv.__lshift__", "galgebra/ga.py:Ga.com"])
p("C28", "Projection into a blade",
  "For an invertible blade B with the inverse used by the code, project_in_blade is linear, idempotent, and on a vector a gives the part of a inside B: a - proj(a) is orthogonal to (has zero left contraction with) B. It keeps grades and scalars, and the projection of A^C is the wedge product of the projections.",
  "all multivectors, blades, metrics",
  "law over an infinite domain",
  ["galgebra/mv.py:Mv.project_in_blade"])
p("C29", "Reflection in a blade",
  "reflect_in_blade is linear, involutive, multiplicative (refl(A*C) = refl(A)*refl(C), and likewise for ^ | < >), keeps grades, and on a vector a equals 2*proj(a) - a.",
  "all multivectors, blades, metrics",
  "grade dependent sign for every grade",
  ["galgebra/mv.py:Mv.reflect_in_blade"])
p("C30", "Exponentials and rotors",
  "For A with scalar square, exp(A)*exp(-A) = 1 whichever branch (circular, hyperbolic, null, hint) is taken; rotate_multivector by a bivector with scalar square is an automorphism of the geometric product and of ^ | < >, and preserves every grade.",
  "all such A, all coefficients c, s with c^2 + s^2 = 1 (circular) or c^2 - s^2 = 1 (hyperbolic)",
  "symbolic",
  ["galgebra/mv.py:Mv.exp", "galgebra/mv.py:Mv.rotate_multivector"])
p("C31", "Quadratic form, norm and magnitude",
  "In an orthogonal basis qform(A) = sum over blades of coef^2 times the product of the squares of its basis vectors; hence it is non-negative for positive metrics and 0 only for A=0 when all squares are positive; norm2(A) of a real multivector is |qform(A)|; norm(A) is its non-negative square root, mag(A)^2 is the sum of |qform| over the grades of A, and qform(V*B) = qform(V)*qform(B) for a versor V.",
  "all multivectors, dimensions, orthogonal metrics",
  "symbolic identity in 2^n coefficients",
  ["galgebra/mv.py:Mv.qform", "galgebra/mv.py:Mv.norm2", "galgebra/mv.py:Mv.mag2"])
p("C32", "Product tables can be cached",
  "Whatever sequence of lookups is made (any keys, any order, any number of times), a lookup in a lazily filled product table returns the same value as computing the product afresh, and each key is computed at most once.",
  "all finite histories of lookups",
  "history dependent",
  ["galgebra/ga.py:lazy_dict", "galgebra/ga.py:BladeProductFunction.table_dict"])
p("C33", "Linear transformations are linear outermorphisms",
  "L(A+B) = L(A)+L(B), L(c*A) = c*L(A), L(A^B) = L(A)^L(B), L(1) = 1, and on vectors L acts by its matrix.",
  "all linear transformations given by complete data, all multivectors",
  "law over an infinite domain",
  ["galgebra/lt.py:Lt.__call__", "galgebra/lt.py:Lt.mv_dict"])
p("C34", "Composition, sum and difference of linear transformations",
  "(L1*L2)(A) = L1(L2(A)); (L1+L2)(v) = L1(v)+L2(v) and (L1-L2)(v) = L1(v)-L2(v) on vectors; the matrix of a composition is the matrix product.",
  "all pairs of transformations, all multivectors/vectors",
  "law over an infinite domain",
  ["galgebra/lt.py:Lt.__mul__", "galgebra/lt.py:Lt.__add__", "galgebra/lt.py:Lt.__sub__"])
p("C35", "Matrix, list and dictionary presentations of a transformation agree",
  "Dictionary_to_Matrix and Matrix_to_dictionary are mutually inverse; building from a matrix gives matrix() equal to it; the nested-list constructor is the transpose convention; lists of vectors give the columns.",
  "all square matrices of every size",
  "unbounded dimension",
  ["galgebra/lt.py:Matrix_to_dictionary", "galgebra/lt.py:Dictionary_to_Matrix", "galgebra/lt.py:Lt.__init__", "galgebra/lt.py:Lt.matrix"])
p("C36", "Determinant of a transformation",
  "L.det() equals the determinant of its matrix, is multiplicative, and L(E) = det(L)*E.",
  "all transformations, all dimensions",
  "n! terms",
  ["galgebra/lt.py:Lt.det"])
p("C37", "Adjoint of a transformation",
  "a|L(b) = adj(L)(a)|b for all vectors, adj(adj(L)) = L, adj(L1*L2) = adj(L2)*adj(L1); on multivectors A<L(B) = L(adj(L)(A)<B), the scalar parts of A*L(B) and adj(L)(A)*B agree, and L(adj(L)(A)*E) = det(L)*A*E.",
  "all transformations, non-degenerate symmetric metrics, vectors and multivectors",
  "law over an infinite domain",
  ["galgebra/lt.py:Lt.adj"])
p("C38", "Inverse and trace of a transformation",
  "L.inv() composed with L on either side is the identity when det is non-zero and raises otherwise; L.tr() is the trace of the matrix and tr(L1*L2) = tr(L2*L1).",
  "all transformations",
  "law over an infinite domain",
  ["galgebra/lt.py:Lt.inv", "galgebra/lt.py:Lt.tr", "galgebra/lt.py:Lt.is_singular"])
p("C39", "Transformations given by partial dictionaries",
  "A transformation built from a dictionary that omits some basis vectors treats the omitted vectors consistently in application, composition, addition and display.",
  "all partial dictionaries",
  "depends on which keys are missing",
  ["galgebra/lt.py:Lt.__call__", "galgebra/lt.py:Lt.__add__", "galgebra/lt.py:Lt.__mul__", "galgebra/lt.py:Lt._sympystr"])
p("C40", "Scalar differential operators: normal form keeps the operator",
  "Consolidating, merging, adding, negating and scaling the terms of an Sdop does not change (resp. gives the sum, negation, multiple of) its action on every function; consolidation leaves one term per partial derivative and no zero terms.",
  "all term lists, all functions, any family of commuting derivations",
  "quantifies over all operators and functions",
  ["galgebra/dop.py:_consolidate_terms", "galgebra/dop.py:_merge_terms", "galgebra/dop.py:Sdop"])
p("C41", "Scalar differential operators: composition and product rule",
  "(D1*D2)(f) = D1(D2(f)) for Sdop and Pdop; differentiating an operator n times follows the iterated Leibniz rule.",
  "all operators, functions and orders n",
  "unbounded order",
  ["galgebra/dop.py:Sdop.__mul__", "galgebra/dop.py:_eval_derivative_n_times_terms", "galgebra/dop.py:Pdop"])
p("C42", "Multivector differential operators",
  "(D1*D2)*F = D1*(D2*F) for left operators, F*(D1*D2) = (F*D1)*D2 for right operators, (D1+D2)*F = D1*F + D2*F, and incompatible operators raise.",
  "all operators and multivector fields",
  "law over an infinite domain",
  ["galgebra/mv.py:Dop.Mul", "galgebra/mv.py:Dop.Add"])
p("C43", "Derivatives of multivector fields obey the product rule",
  "blade_derivation extends the derivatives of the basis vectors by the Leibniz rule over ^; pDiff with connection is linear and obeys the Leibniz rule over ^.",
  "all blades, all fields, all connections",
  "unbounded grade",
  ["galgebra/ga.py:Ga.blade_derivation", "galgebra/ga.py:Ga.pDiff"])
p("C44", "Christoffel symbols",
  "The Christoffel symbols of the first kind are symmetric in the first two slots, Gamma_ijk + Gamma_ikj = d_i g_jk (metric compatibility), and those of the second kind lower back to those of the first kind.",
  "all coordinate dependent symmetric metrics",
  "symbolic metric functions",
  ["galgebra/metric.py:Metric.Christoffel_symbols", "galgebra/metric.py:Metric.dg"])
p("C45", "Submanifold metric is the pull-back",
  "The metric computed for a submanifold satisfies g_sub(a,b) = g(J a, J b), is symmetric, and is positive when g is positive and J is injective; g is evaluated at the point of the base manifold the map describes. A submanifold of a submanifold has the metric that the composed map gives.",
  "all Jacobians, all metrics",
  "symbolic",
  ["galgebra/ga.py:Sm.__init__"])
p("C46", "Algebra identity and mixing guard",
  "Algebras created in one process have pairwise different names, == holds exactly between an algebra and itself, and a binary operation between multivectors of different algebras raises instead of returning a value.",
  "every history of constructions and operations",
  "history dependent counter",
  ["galgebra/metric.py:Metric.__init__", "galgebra/ga.py:Ga.__eq__", "galgebra/mv.py:Mv.__add__"])
p("C47", "Cl(p,q,r)",
  "Cl(p,q,r) raises exactly when p+q+r=0, otherwise yields p+q+r orthogonal basis vectors of which p square to +1, q to -1, r to 0 in that order, with distinct basis names.",
  "all p, q, r",
  "unbounded",
  ["galgebra/interop/_cl.py"])
p("C48", "Generic multivectors have independent coefficients",
  "A generic multivector Ga.mv(name, kind) has a different coefficient symbol on every blade of its grades.",
  "all coordinate names and dimensions",
  "names are concatenated; collisions depend on the names",
  ["galgebra/mv.py:Mv._make_grade", "galgebra/mv.py:Mv._make_mv", "galgebra/mv.py:Mv._make_spinor"])
p("C49", "GAeval only inserts parentheses and honours the precedence",
  "The expression rewriting of GAeval only inserts parentheses (removing all parentheses and spaces gives the input back), never fails on a well-formed expression, and groups operators by the declared precedence.",
  "all expressions",
  "all strings",
  ["galgebra/printer.py:GAeval", "galgebra/_utils/parser.py"])
p("C50", "Cached classification of a multivector stays valid",
  "The results of is_blade, is_versor, characterise and grades queries depend only on the current value of the multivector, not on which queries or set_coef updates happened before.",
  "every history of queries and updates",
  "history dependent caches",
  ["galgebra/mv.py:Mv.set_coef", "galgebra/mv.py:Mv.is_blade", "galgebra/mv.py:Mv.is_versor"])
p("C51", "connection results are repeatable",
  "Asking an algebra for the connection multivector of the same arguments any number of times returns the same value.",
  "every history of calls",
  "history dependent cache",
  ["galgebra/ga.py:Ga.connection"])
p("C52", "compare recognises scalar multiples",
  "compare(A,B) returns a scalar c relating A and B by B = c*A when they are proportional, and 0 otherwise.",
  "all pairs of multivectors",
  "all coefficient patterns",
  ["galgebra/mv.py:compare"])
p("C53", "Cross product",
  "cross(a,b) has the classical components in an orthonormal Euclidean 3-space, is antisymmetric and orthogonal to both arguments; it raises unless both arguments are non-zero vectors of a 3-dimensional algebra. With q = I*I (-1 in Euclidean space), c|(a x b) == a|(b x c), (a x b) x c == q*((b|c)*a - (a|c)*b), (a x b)|(c x d) == -q*((a|c)*(b|d) - (a|d)*(b|c)), and Jacobi's identity holds.",
  "all vectors, all symmetric metric tensors of dimension 3",
  "symbolic identity",
  ["galgebra/mv.py:cross"])
p("C54", "ReciprocalFrame",
  "For a list of vectors with invertible pseudoscalar E of their span, the returned vectors satisfy r_i | v_j = delta_ij in norm mode and delta_ij*E^2 otherwise (with E^2 appended). In norm mode they lie in the span of the v_i and are the only vectors there with these products; every a in the span is the sum of the (a|r_i)*v_i and of the (a|v_i)*r_i; the reciprocal frame of the r_i is v_i. E^2 is up to sign the determinant of the v_i|v_j; norm mode has a result exactly if it is not zero, for definite metrics exactly if the v_i are linearly independent.",
  "all frames, any number of vectors, all metrics",
  "sign pattern for every frame size",
  ["galgebra/ga.py:Ga.ReciprocalFrame"])
p("C55", "blade_reduce computes permutation signs",
  "blade_reduce applied to the concatenation of two basis blades returns 0 exactly when an index repeats, otherwise the sorted list and the sign of the sorting permutation.",
  "all pairs of strictly increasing index lists (and all index lists, where it holds)",
  "unbounded length; the loop reads index -1 when an element is moved to the front",
  ["galgebra/ga.py:Ga.blade_reduce"])
p("C56", "Metric strings",
  "A metric string (other than the special string 'g') is accepted exactly when every row has n entries or the string is one row of n entries (diagonal); '#' entries give fresh symmetric symbols; the resulting matrix is symmetric for symmetric input.",
  "all strings and dimensions",
  "all strings",
  ["galgebra/metric.py:Metric.metric_symbols_list"])
p("C57", "Reciprocal blades",
  "The reciprocal blade e^I that the gradient with respect to a multivector uses for the basis blade e_I satisfies <e^I e_J>_0 = delta_IJ for all basis blades e_J.",
  "all dimensions, all non-degenerate symmetric metrics (orthogonal or not), all pairs of basis blades",
  "4^n pairs for every n and every metric; the non-orthogonal branch defers the normalisation by powers of E^2",
  ["galgebra/ga.py:Ga._reciprocal_of_basis_blade", "galgebra/ga.py:Ga.make_grad"])

p("C58", "Versor transformations and isometries",
  "When lt(V) returns for a multivector V used as a versor, the transformation maps every vector x to g_invol(V)*x*inv(V); it preserves the inner product of vectors, commutes with the geometric product (L(A*B) = L(A)*L(B)), and on every multivector A equals the sandwich V*A*inv(V) for even V and V*g_invol(A)*inv(V) for odd V. It returns for every product of vectors with non-zero square. Every transformation whose matrix preserves the metric is an automorphism of the geometric product.",
  "all dimensions, all symmetric metrics, all versors V, all multivectors A and B",
  "an outermorphism is built from the images of n vectors only; that it respects a product it was not built from, on 2^n blades and every metric, is a theorem about Clifford algebras",
  ["galgebra/lt.py:Lt.__init__", "galgebra/lt.py:Lt.__call__", "galgebra/mv.py:Mv.inv"])

p("C59", "Product rules of the coordinate derivative",
  "In every algebra constructed with coordinates, also with norm=True, the coordinate derivative Ga.pDiff obeys the product rule for the geometric product, pDiff(A*B) = pDiff(A)*B + A*pDiff(B), and for |, < and >: the derivatives of the basis vectors which the algebra computes from its metric are compatible with the metric.",
  "all symmetric coordinate dependent metrics (orthogonal or not), all orthogonal normalised ones, all multivector fields in blade representation",
  "the connection is computed from derivatives of 1/2 n(n+1) arbitrary functions; compatibility has to hold for every metric and 4^n pairs of blades",
  ["galgebra/ga.py:Ga.pDiff", "galgebra/ga.py:Ga._update_de_from_rbasis", "galgebra/metric.py:Metric.de", "galgebra/metric.py:Metric.normalize_metric"])

p("C60", "Gradient operators",
  "Ga.grads returns operators built from gradient vectors reciprocal to the tangent vectors of the coordinates. Applied to a scalar field, grad gives the vector with a|grad f the derivative of f along a; grad is additive, obeys the product rule with scalar fields, and splits as grad*F = (grad<F) + (grad^F); rgrad is grad by reversal; (a|grad)F is the directional derivative of F; and grad^(grad^F) = 0 for every field F in flat and curved spaces, in particular grad^(grad f) = 0. grad^(A^B) = (grad^A)^B + A.g_invol()^(grad^B), and grad*(a|b) = (a|grad)*b + (b|grad)*a - (a<(grad^b) + b<(grad^a)) for vector fields. Directional derivatives of a scalar field commute up to the bracket of the vector fields: (a|grad)((b|grad)f) - (b|grad)((a|grad)f) = ((a|grad)b - (b|grad)a)|(grad f). The derivative (a|grad) in a direction obeys the product rule for each of the products *, ^, |, < and >, keeps grades and commutes with rev(), and gives the values of the curl of a vector field, b<(a<(grad^v)) = ((a|grad)v)|b - ((b|grad)v)|a.",
  "all dimensions, all symmetric coordinate dependent metrics with an invertible matrix, orthogonal ones also with norm=True, all fields",
  "the identities hold between combinations of derivatives of arbitrary functions and of the metric, over every metric and all 2^n components of a field",
  ["galgebra/ga.py:Ga._build_grads", "galgebra/ga.py:Ga.grads", "galgebra/mv.py:Dop.Mul", "galgebra/mv.py:Dop.__call__"])

p("C61", "pure_grade",
  "pure_grade() of a non-zero multivector of a single grade r is r, of zero it is 0, and of a multivector of mixed grades it is minus the largest grade that occurs, whatever the object was asked before.",
  "all dimensions, all multivectors in blade representation, every history of earlier questions",
  "reads cached attributes of a mutable object; the order of the terms of a symbolic sum is not under the control of a test",
  ["galgebra/mv.py:Mv.pure_grade", "galgebra/mv.py:Mv.characterise_Mv"])

p("C62", "Vector manifolds",
  "The metric of an algebra constructed from a vector manifold X has the entries sum_k d_i X_k d_j X_k; it is symmetric, positive semidefinite at every point, and definite exactly where the derivative of X is injective.",
  "all X and all numbers of coordinates",
  "symbolic X of any length",
  ["galgebra/metric.py:Metric.__init__", "galgebra/metric.py:Metric.dot_orthogonal"])

p("C63", "Multilinear functions",
  "Mlt(v) stands for x -> v|x, Mlt(L) for (x,y) -> x|L(y), Mlt('T', r) for the generic function sum T_I x_i1...x_ir and Mlt(f) for the Python function f; sums, differences, scalar multiples and products (F*G)(v1..vr,..,vr+s) = F(v1..vr)*G(vr+1..vr+s) have the corresponding values; calling a function with vectors gives its value; every function so made is linear in each argument.",
  "all dimensions, all symmetric metrics, all numbers of arguments, all vectors, every program that makes functions from others, every order in which functions of different rank are made",
  "functions of any rank, and generic vectors shared by all functions of an algebra: the value of one depends on which others were made before",
  ["galgebra/lt.py:Mlt.__init__", "galgebra/lt.py:Mlt.__call__", "galgebra/lt.py:Mlt.__add__", "galgebra/lt.py:Mlt.__sub__", "galgebra/lt.py:Mlt.__mul__", "galgebra/lt.py:Mlt.increment_slots"])

p("C64", "Derivatives and contractions of multilinear functions",
  "T.pdiff(k) is the gradient of T by its k-th argument; T.contract(j,k) is the tensor contraction; T.cderiv() has one more argument w and is the derivative of T along w; and taking them does not change later derivatives of multivectors.",
  "all ranks, metrics, tensor fields and histories of calls",
  "derivatives by symbols of generic vectors, for all tensors; a flag on the algebra survives the call",
  ["galgebra/lt.py:Mlt.pdiff", "galgebra/lt.py:Mlt.contract", "galgebra/lt.py:Mlt.cderiv", "galgebra/lt.py:Mlt.remove_slot", "galgebra/ga.py:Ga.pDiff"])

p("C65", "Access to coefficients",
  "A.blade_coefs(list) gives the coefficients of the listed basis blades, in the order of the list; A.get_coefs(r) those of all basis blades of grade r, and raises unless A has grade r; A.components() are the non-zero terms in the order of Ga.blades.flat and add up to A; A.proj(bases) keeps exactly the terms of the listed blades; subs and simplify act on every coefficient separately; collect and value preserving simplifications give an equal multivector.",
  "all dimensions, symmetric metrics, multivectors, lists of blades in any order and with repetitions, functions on coefficients",
  "multivectors with any set of non-zero coefficients, held as sums whose order is chosen by SymPy",
  ["galgebra/mv.py:Mv.blade_coefs", "galgebra/mv.py:Mv.get_coefs", "galgebra/mv.py:Mv.components", "galgebra/mv.py:Mv.proj", "galgebra/mv.py:Mv.subs", "galgebra/mv.py:Mv.simplify", "galgebra/mv.py:Mv.collect"])

p("C66", "Hashing agrees with equality",
  "Multivectors that compare equal have equal hashes, and a multivector that equals a plain scalar has the hash of the scalar, so that multivectors can be used as keys of dictionaries.",
  "all dimensions, metrics, pairs of multivectors, and hash functions of SymPy expressions",
  "a relation between all pairs of equal objects; the hash function of expressions is randomised per process",
  ["galgebra/mv.py:Mv.__hash__", "galgebra/mv.py:Mv.__eq__"])

p("C67", "Derivatives by coordinates and parameters",
  "A.diff(x) by a coordinate is the derivative of the field, including the derivatives of the basis vectors; after Ga.parametric([f1,...,fn]) A.diff(t) by a parameter is the derivative along the curve, by the chain rule.",
  "all dimensions, metrics, connections, fields and lists of functions",
  "arbitrary coefficient functions",
  ["galgebra/mv.py:Mv.diff", "galgebra/ga.py:Ga.pDiff", "galgebra/ga.py:Ga.parametric"])

p("C68", "Signature of the metric",
  "The attribute sig of an algebra is (p, q) with p positive and q negative squares in an orthogonal basis, and the sign e_sq_sgn kept for the square of the pseudoscalar is the sign of E**2; a hint sig='e', 'm+', 'm-' or an integer gives the stated signature.",
  "all dimensions, symmetric metrics over ordered fields, hints",
  "the signature of a quadratic form is independent of the basis (Sylvester); all metrics",
  ["galgebra/metric.py:Metric.signature", "galgebra/metric.py:Metric.__init__"])

p("C69", "Normalised bases",
  "With norm=True and an orthogonal metric the basis vectors square to +1 or -1 with the signs of the given squares and stay orthogonal; the lengths e_norm satisfy e_norm[i]^2 = |e_i^2|; a non-orthogonal metric raises; the new metric is the old quadratic form in scaled coordinates.",
  "all dimensions, orthogonal metrics without zero squares, hints, factorisations returned by SymPy",
  "square roots of arbitrary expressions",
  ["galgebra/metric.py:Metric.__init__", "galgebra/metric.py:Metric.normalize_metric", "galgebra/metric.py:square_root_of_expr"])

p("C70", "Derivatives with respect to a multivector",
  "The operator d = Ga.make_grad(A) is the derivative with respect to the multivector A: for a generic vector x in n dimensions and any a independent of x, d*(x*a) = n*a, d*(x^a) = (n-r)*a and d*(x<a) = r*a for a of grade r, d*(x*x) = 2*x, and the left acting operator satisfies (a*x)*d = n*a; for a generic multivector A (or one of grade r), d*<A*B> = B (or its part of grade r); make_grad of the coordinate vector is grad.",
  "all dimensions, invertible symmetric metrics, generic multivectors, and multivectors independent of them",
  "identities in all multivectors and dimensions over any metric",
  ["galgebra/ga.py:Ga.make_grad", "galgebra/ga.py:Ga._reciprocal_of_basis_blade", "galgebra/mv.py:Dop.Mul", "galgebra/ga.py:Ga.pDiff"])

p("C71", "Expansion of operators by basis blades",
  "Dop([(s1, M1), ...]) with scalar operators s_i and multivectors M_i acts as the sum of the M_i op s_i(F) (for cmpflg=True: s_i(F) op M_i). components() of an operator is a tuple of operators with the same complement flag, one for each of some basis blades and in the order of the basis blades, whose coefficients are multiples of that blade and whose sum acts like the operator for every product and every field. is_scalar() holds exactly if all coefficients are scalars, and then scalar fields are mapped to scalar fields.",
  "all dimensions, metrics with commuting derivatives, operators, products and multivector fields",
  "equality of operators is equality of their action on every field; unbounded order and number of terms",
  ["galgebra/mv.py:Dop.__init__", "galgebra/mv.py:Dop.components", "galgebra/mv.py:Dop.Dop_mv_expand", "galgebra/mv.py:Dop.is_scalar", "galgebra/dop.py:Sdop.__call__"])

p("C72", "Symbolic matrices and generic transformations",
  "Symbolic_Matrix(kernel, coords, f, mode) raises exactly if coords is no list or tuple or mode is not 'g', 's' or 'a'. Otherwise it is a general, symmetric or antisymmetric matrix whose independent entries are symbols (or functions) of different names, so its values are exactly the general, symmetric or antisymmetric matrices. The values of Lt(name, mode='g') are all transformations, those of mode 's' are exactly the self-adjoint ones (a|L(b) = L(a)|b) and those of mode 'a' exactly the skew-adjoint ones, for every metric; the property L.mode gives the mode back.",
  "all dimensions, kernels, coordinate names, modes, metrics with non-zero determinant and transformations",
  "the number of parameters and the loops that place them depend on the dimension, and names must not clash for any coordinates",
  ["galgebra/lt.py:Symbolic_Matrix", "galgebra/lt.py:Lt.__init__", "galgebra/lt.py:Lt.mode"])

p("C73", "Scalars as operands",
  "Every binary operator +, -, *, ^, |, <, >, << and >> with a plain scalar on either side gives the same multivector as with that scalar made into a multivector first, and x / y multiplied by y is x, for scalars and multivectors on either side whenever the division returns.",
  "all algebras, operators, scalars and multivectors in either representation",
  "the operators with scalars are separate branches of the code, so agreement with the general product is a law over all multivectors and scalars",
  ["galgebra/mv.py:Mv.__add__", "galgebra/mv.py:Mv.__radd__", "galgebra/mv.py:Mv.__rsub__", "galgebra/mv.py:Mv.__mul__", "galgebra/mv.py:Mv.__rmul__", "galgebra/mv.py:Mv.__xor__", "galgebra/mv.py:Mv.__or__", "galgebra/mv.py:Mv.__lt__", "galgebra/mv.py:Mv.__gt__", "galgebra/mv.py:Mv.__truediv__", "galgebra/mv.py:Mv.__rtruediv__"])
p("C74", "The text of a multivector",
  "str(A) never raises and says A: without its blanks it is the sequence of the terms of A, each exactly once, by grade and within a grade in the dictionary order of the basis vectors, each with its sign before it; format 1 gives one line, format 2 one line per grade and format 3 one line per term. In format 1 equal multivectors give equal texts, however SymPy orders or splits their terms.",
  "all multivectors in either representation, all orders and splittings of their terms, all formats and all printers of single terms that negate by a leading minus sign",
  "the terms arrive in an arbitrary order and with repeated symbols, and their number grows with the dimension",
  ["galgebra/mv.py:Mv._sympystr"])

p("C75", "Names of basis blades",
  "Different basis blades have different texts (str), with wedges and without, from which the basis vectors can be read; without wedges a ValueError is raised exactly if the names of the vectors are not a common root, an underscore and a subscript. bases_dict() has every basis blade except the scalar, each under the prefix and its digits.",
  "all dimensions, names of basis vectors and prefixes",
  "collisions depend on how arbitrary names of arbitrary length join",
  ["galgebra/atoms.py:BasisBladeSymbol", "galgebra/atoms.py:BasisBaseSymbol", "galgebra/atoms.py:BasisBladeNoWedgeSymbol", "galgebra/ga.py:Ga.bases_dict", "galgebra/ga.py:Ga._build_basis_blade_symbol"])

p("C76", "Capturing printed output",
  "After Format() (or LatexFormat()) everything printed until tex() (or xpdf()) is in the returned document in LaTeX form, exactly once and in order, and nothing of it is on the terminal; everything printed before and after is on the terminal in plain form, and not in a document.",
  "all programs of calls of print, Format, LatexFormat and tex, of any length",
  "the redirection is global state that every call changes, so it must hold for every history",
  ["galgebra/printer.py:GaLatexPrinter.redirect", "galgebra/printer.py:GaLatexPrinter.restore", "galgebra/printer.py:Format", "galgebra/printer.py:LatexFormat", "galgebra/printer.py:tex", "galgebra/printer.py:_print"])

p("C77", "Post-processing of captured output",
  "In the document tex() makes, every printed line is one LaTeX environment, in order: a line that has an align* environment is that environment with the text before it moved inside, every other line is an equation*. On the left of the last '=' of the line the operators *, ^, |, <, >, <<, >>, grad and rgrad, and nothing else, are replaced by their LaTeX forms; the rest of the line is unchanged. Lines that begin with % or #% are not translated, lines that begin with # are neither translated nor put in an environment, and lines between two lines that begin with ## are verbatim.",
  "all captured texts: any number of lines with any characters",
  "the translation is a regular expression substitution applied to arbitrary user text",
  ["galgebra/printer.py:tex", "galgebra/printer.py:_texify"])

p("C78", "The metric tensor an algebra is constructed with",
  "Ga(..., g=m, norm=...) gives an algebra with the metric tensor m, given as a matrix, a list of rows or a list of squares (divided by the norms of the basis vectors with norm=True), and the connection of m. The call does not change m, so the same call again gives an equal algebra, and a.g stays the same whatever algebras are constructed and matrices changed later.",
  "all dimensions, metric tensors and forms of the argument, and all later programs of constructions, new matrices and assignments to matrix entries",
  "matrices are mutable objects shared between the program and any number of algebras, so it must hold for every history",
  ["galgebra/metric.py:Metric.__init__", "galgebra/metric.py:Metric.normalize_metric", "galgebra/ga.py:Ga.__init__"])

p("C79", "The text of a differential operator",
  "str() and the LaTeX text of a Pdop, Sdop or Dop say the operator: the terms appear exactly once each, lower orders first, with their coefficients (sums in parentheses, 1 and -1 as signs) and derivatives; in a Dop each basis blade appears once, in the order of the blades, multiplied by its scalar operator on the correct side. Different derivatives have different texts and equal operators have the same text.",
  "all partial derivatives, scalar operators and multivector operators of any number of terms, any texts of coefficients, symbols and blades without a plus sign followed by a minus sign",
  "the text is made by concatenation and then replacing '+ -' and cutting off the end, so it must hold for every number and order of terms",
  ["galgebra/dop.py:Pdop._sympystr", "galgebra/dop.py:Pdop._latex", "galgebra/dop.py:Sdop._sympystr", "galgebra/dop.py:Sdop._latex", "galgebra/mv.py:Dop._sympystr", "galgebra/mv.py:Dop._latex"])

p("C80", "The LaTeX text of a multivector",
  "The LaTeX text of a multivector says the multivector: each term appears exactly once, by grade and in the order of the basis blades, with its sign and coefficient (sums in parentheses, 1 and -1 as signs only), on one line (format 1), one line per grade (format 2) or one line per term (format 3), several lines being wrapped in an aligned environment. TeX reads the text as the sum of these terms: no sign, coefficient or blade runs into its neighbour. Equal multivectors have the same LaTeX text, however SymPy orders and splits the terms.",
  "all multivectors in blade or base representation over all metrics, all orders and splittings of their terms, all three formats, all texts of coefficients and blades",
  "the text is assembled by string concatenation over an arbitrary number of terms in an arbitrary order",
  ["galgebra/mv.py:Mv._latex", "galgebra/printer.py:ZERO_STR"])

p("C81", "Print settings and formats",
  "A text is made with the settings given in the call, else with the last global settings (Fmt(k), enhance_print, Format), else with the defaults; an object that was given a format by its method Fmt is printed with that format wherever it occurs, and making, formatting or printing an object never changes how another one is printed. enhance_print(None, None, None) turns colours off again.",
  "all programs that create, format, list and print objects and change global settings, in any order, for both printers",
  "the settings live in mutable dictionaries that classes, printers and objects could share, so that a leak only shows after particular histories",
  ["galgebra/printer.py:_WithSettings", "galgebra/printer.py:_FmtResult", "galgebra/printer.py:enhance_print", "galgebra/printer.py:Format", "galgebra/printer.py:Fmt", "galgebra/mv.py:Mv.Fmt", "galgebra/lt.py:Mlt.Fmt"])

p("C82", "Names of symbols",
  "symbols_list makes exactly the names that its documentation says for every string of one of the four documented forms, for subscripts and superscripts, and a string has only one meaning; the constructor of an algebra names its basis vectors and reciprocal symbols in this way.",
  "all strings of the documented forms, with any number of names, indices and characters; both modes; any coordinates",
  "the string is split by several separators in turn, so that a wrong order or a lost trailing name only shows for particular combinations",
  ["galgebra/metric.py:symbols_list", "galgebra/metric.py:Metric.__init__"])

p("C83", "The names of the basis vectors do not matter",
  "The derivatives of the basis vectors of an algebra with coordinates are the same whatever the basis vectors are called, and they are compatible with the metric.",
  "all metrics, all dimensions, normalised or not, all pairwise different names, any order in which SymPy makes the substitutions of a dictionary",
  "the reciprocal vectors are substituted for symbols by name; a clash of names needs a particular combination of names and metric",
  ["galgebra/metric.py:Metric.__init__", "galgebra/metric.py:Metric.de", "galgebra/metric.py:Metric.normalize_metric", "galgebra/ga.py:Ga._update_de_from_rbasis", "galgebra/ga.py:Ga.r_basis_dict"])

p("C84", "The LaTeX text of a multilinear function",
  "The LaTeX text of a multilinear function of at least two arguments is the sum of its components, each once with the symbols of the arguments it is multiplied with, in the order of the arguments and basis vectors, on lines with the number of components that Fmt sets, and TeX reads it as that.",
  "all multilinear functions of any rank over any dimension, any splitting of the expression into terms, all numbers of components per line, all texts of coefficients",
  "components are found by grouping consecutive sorted terms, and lines by counting, over an arbitrary number of terms; the text is glued from parts",
  ["galgebra/lt.py:Mlt._latex", "galgebra/lt.py:Mlt.expand_expr", "galgebra/lt.py:Mlt.Fmt"])

p("C85", "Substituting values before or after a calculation",
  "A calculation with the operators and methods of multivectors, followed by the substitution of values for symbols, gives the same coefficients as the calculation in the algebra whose metric, given multivectors and constants have the values inserted at the start, also when the metric becomes orthogonal by it. An equation that == confirms with symbols holds for all values of the symbols; one that holds for sufficiently many values is confirmed with symbols.",
  "all calculations of any length built from + - * ^ | < > << >> **, grades, even and odd parts, rev, g_invol, ccon, scalar, sp, qform; all metrics, multivectors in blade representation and substitutions that respect sums and products",
  "ranges over all calculations, metrics and substitutions; an oblique and an orthogonal metric are multiplied by different code",
  ["galgebra/mv.py:Mv.subs", "galgebra/mv.py:Mv.__mul__", "galgebra/ga.py:Ga.mul", "galgebra/ga.py:Ga.Mul", "galgebra/mv.py:Mv.__eq__"])

p("C86", "Coefficients whose equality SymPy does not recognise",
  "Coefficients are SymPy expressions, and different expressions may have the same value, such as sin(x)**2+cos(x)**2 and 1. The result of every calculation has the right value all the same, although the library decides with expressions whether a term vanishes, a factor is a scalar or the basis is orthogonal. What == confirms is true whatever simplification is used, and == recognises all equal multivectors if the simplification finds every zero. == with a number agrees with == with the multivector of that number, and equal multivectors have equal hashes.",
  "all calculations of any length, all metrics and multivectors, all simplifications that keep values, all valuations of expressions",
  "ranges over all expressions and all ways SymPy may fail to simplify them",
  ["galgebra/mv.py:Mv.__eq__", "galgebra/mv.py:Mv.__hash__", "galgebra/mv.py:Mv.simplify", "galgebra/metric.py:Simp.apply", "galgebra/metric.py:apply_function_list"])

p("C87", "Constructors of multivectors",
  "Ga.mv(name, kind) contains every basis blade of the grades of the kind, with the symbol or function named after the multivector and the blade as coefficient, for every spelling of the kind and every value of f. Ga.mv(coefficients, grade) is the sum of the coefficients times the basis blades of that grade in their order, and reading the coefficients back gives the same list, filled with zeros. Copying, numbers and expressions give themselves. Several names give the tuple of the single constructions. Too many coefficients, unknown categories and keywords, missing coordinates and grades outside 0..n are rejected.",
  "all algebras, names, kinds, spellings, coefficient lists, keyword arguments and numbers of names",
  "ranges over all argument combinations, dimensions and lists of names",
  ["galgebra/mv.py:Mv.__init__", "galgebra/mv.py:Mv._make_grade", "galgebra/mv.py:Mv._make_scalar", "galgebra/mv.py:Mv._make_mv", "galgebra/ga.py:Ga.mv", "galgebra/_utils/kwarg_parser.py:KwargParser"])

p("C88", "Divergence and Laplacian",
  "The divergence grad|v of a vector field with components a_i in the tangent vectors of the coordinates is (1/w) sum_i d_i(w a_i), where w is a root of the determinant of the metric tensor. The Laplacian grad*(grad*f) of a scalar field is the divergence of the gradient (Laplace-Beltrami), and the operator grad*grad gives the same. The divergence of a divergence vanishes, grad<(grad<F) = 0, and grad*(grad*F) = grad<(grad^F) + grad^(grad<F) keeps the grade of F. grad<(a^b) = (grad<a)*b - (grad<b)*a + (a|grad)*b - (b|grad)*a for vector fields, and grad*(grad*(f*k)) = f*(grad*(grad*k)) + k*(grad*(grad*f)) + 2*((grad*f)|(grad*k)) for scalar fields. All of this holds in flat and curved spaces, with and without norm=True.",
  "all dimensions, all symmetric coordinate dependent metrics with an invertible matrix, orthogonal ones also with norm=True, all fields",
  "identities between derivatives of arbitrary functions and of the determinant of the metric in every dimension",
  ["galgebra/ga.py:Ga._build_grads", "galgebra/ga.py:Ga.grads", "galgebra/mv.py:Dop.Mul", "galgebra/mv.py:Dop.__call__", "galgebra/metric.py:Christoffel_symbols"])

p("C89", "Names and derivatives in print",
  "The LaTeX text of a symbol is read by TeX as its name, with the names of Greek letters and other glyphs in it turned into control words and everything else left as it is, and with the upper and lower indices each in one group; different names are printed differently, and a control word for a glyph in a name is left alone. The LaTeX text of a derivative shows the operators in order with equal neighbours taken together, as a fraction or flat, and the plain text of a derivative determines the variables, the orders and the function.",
  "all lists of glyph names, all names, all numbers of indices, all variables, orders and texts of functions",
  "ranges over all names and all ways in which names of glyphs overlap in them",
  ["galgebra/printer.py:GaLatexPrinter._print_Symbol", "galgebra/printer.py:GaLatexPrinter._print_Derivative", "galgebra/printer.py:GaPrinter._print_Derivative"])

p("C90", "Calculations do not depend on the basis",
  "Take any vectors of an algebra and make a new algebra with them as basis vectors, whose metric tensor is the matrix of their inner products. A calculation with sums, products, powers, grades, reversion, involutions and scalar products in the new algebra, rewritten in the old one by replacing every basis vector by the vector it stands for, gives the same multivector as the calculation with rewritten operands in the old algebra; scalar results are the same number. An equation that holds in the new algebra holds in the old one, and conversely if the vectors are independent. This covers reordered, selected, oblique and normalised bases and the tangent vectors of a submanifold.",
  "all metrics, all numbers of vectors, all vectors, all calculations, all operands",
  "ranges over all changes of basis and over all expressions built from the operations; the two algebras may be orthogonal or not, so different code computes the products",
  ["galgebra/mv.py:Mv", "galgebra/ga.py:Ga.build", "galgebra/ga.py:Sm.__init__", "galgebra/metric.py:Metric.normalize_metric"])

p("C91", "Formulas printed with gprint and documents made with gxpdf",
  "gprint shows its arguments in order, strings as they are and objects by their LaTeX text or text; after gFormat each line of the formula becomes one equation. The document that gxpdf writes contains, in order, everything printed since gFormat was first called or since the last document, and nothing else, under a header with the given class, font size and paper size, in the given file.",
  "all arguments, all strings, all histories of calls of gFormat, gprint, gPrint_Function and gxpdf",
  "ranges over all strings and all histories of calls",
  ["galgebra/gprinter.py:gFormat", "galgebra/gprinter.py:gprint", "galgebra/gprinter.py:gxpdf", "galgebra/gprinter.py:paper_format", "galgebra/gprinter.py:gPrint_Function"])

p("C92", "Lists and dictionaries in LaTeX, and titled objects as plain text",
  "Fmt(obj, 1) prints a list, tuple or dictionary as a LaTeX array with one column for each element between the delimiters, and Fmt(obj) as an array with one line for each element; TeX reads the text as that. oprint prints every title with its object, in order, and aligns the equality signs of the objects whose text has one line.",
  "all lists, tuples and dictionaries, all texts of elements, all titles and objects",
  "ranges over all numbers of elements and all texts",
  ["galgebra/printer.py:Fmt", "galgebra/printer.py:oprint", "galgebra/printer.py:GaPrinter._print_dict"])

p("C93", "Numbers, multivectors and differential operators mixed as operands",
  "In x + y, x - y, x * y and x ^ y each operand may be a number or expression, a multivector, a Pdop, an Sdop or a Dop. Whatever the kinds are, if the result is defined then it acts as the mathematical one: (x + y) * F = x * F + y * F, (x - y) * F = x * F - y * F, (x * y) * F = x * (y * F), (x ^ y) ^ F = x ^ (y ^ F), and for operators acting to the left F * (x * y) = (F * x) * y. A number counts as the scalar multivector. The pairs of kinds for which an exception is raised are exactly the listed ones.",
  "all operands of all kinds, all metrics with commuting derivatives, all fields F",
  "ranges over all operators, of every order and number of terms, and all fields",
  ["galgebra/dop.py:Sdop.__add__", "galgebra/dop.py:Sdop.__call__", "galgebra/dop.py:Pdop.__call__", "galgebra/dop.py:_BaseDop.__sub__", "galgebra/mv.py:Dop.Add", "galgebra/mv.py:Dop.Mul", "galgebra/mv.py:Dop.__lt__", "galgebra/mv.py:Mv.__mul__"])

p("C94", "Sessions with def_prec and GAeval",
  "After any history of assignments, calls of def_prec and calls of GAeval, GAeval(s) returns the value that s has in the Clifford algebra, read with the operator order of the last def_prec that did not raise an exception, every name having the value last assigned to it in the dictionary given to that def_prec, also if it was assigned later. def_prec accepts exactly the lists of the groups <>|, ^ and *; a call that raises changes nothing; calls of GAeval change nothing; before def_prec no name is defined.",
  "all histories, all expressions, all values of the variables, all metrics",
  "ranges over all histories and all expressions",
  ["galgebra/printer.py:def_prec", "galgebra/printer.py:GAeval", "galgebra/_utils/parser.py:validate_op_order", "galgebra/_utils/parser.py:parse_line"])

p("C95", "Scripts do not depend on the basis",
  "A Python script that assigns results of operators, inverses, divisions, negative powers, projections, reflections and duals to variables, and branches and loops on ==, is_zero, is_scalar, is_vector, is_versor and is_blade, has the same outcome in the algebra of any other basis of the same vector space, after its inputs are rewritten in that basis: it ends with the same multivectors, raises in the same cases, or keeps running. With duals the bases must have the same orientation; the dual changes its sign with the orientation.",
  "all scripts, all inputs, all symmetric metrics, all bases of the vector space, all dimensions, all numbers of passes through loops",
  "ranges over all programs and all pairs of bases, and over unbounded loops",
  ["galgebra/mv.py:Mv.inv", "galgebra/mv.py:Mv.hitzer_inverse", "galgebra/mv.py:Mv.shirokov_inverse", "galgebra/mv.py:Mv.project_in_blade", "galgebra/mv.py:Mv.reflect_in_blade", "galgebra/mv.py:Mv.dual", "galgebra/mv.py:Mv.undual", "galgebra/mv.py:Mv.is_versor", "galgebra/mv.py:Mv.is_blade", "galgebra/ga.py:Ga.i"])

p("C96", "Fields and their derivatives do not depend on the coordinates",
  "A program that calculates with multivector fields, gradients, divergences and curls (grad and rgrad with any product) and derivatives along a field (A|grad)*B gives the same fields in every coordinate system of the space, with or without normalised basis vectors: convert the inputs to the other coordinates, run it there, and the results are the converted results. Every field can be converted, equal fields are equal in all coordinates, scalar parts are the same functions, and derivatives by coordinates obey the chain rule.",
  "all programs, all fields, all metric tensors (also of curved spaces), all changes of coordinates, all dimensions",
  "ranges over all programs, all fields and all pairs of coordinate systems",
  ["galgebra/ga.py:Ga.grads", "galgebra/ga.py:Ga._build_grads", "galgebra/ga.py:Ga.pDiff", "galgebra/ga.py:Ga._build_connection", "galgebra/metric.py:Metric", "galgebra/mv.py:Dop", "galgebra/mv.py:Mv.diff"])

p("C97", "exp is the exponential series, and rotations are generated by their bivector",
  "When A.exp() has a value, it is the sum of the series 1 + A + A**2/2! + A**3/3! + ..., whichever branch (circular, hyperbolic, null) the square and the hint select. exp(t*A), as a function of t, has the derivative A*exp(t*A). The multivector rotated by t*theta, as a function of t, has the derivative given by its commutator (>>) with theta.",
  "all A and theta with scalar square, all hints (also different ones for different t), all multivectors rotated, all symmetric metrics with complex entries, all t, all dimensions",
  "a limit and a derivative; ranges over all multivectors and metrics",
  ["galgebra/mv.py:Mv.exp", "galgebra/mv.py:Mv.rotate_multivector"])

p("C98", "Derivatives on a submanifold are tangential parts of derivatives in the space around it",
  "Write a multivector field of a submanifold made with Ga.sm with vectors of the space around it, each basis vector as the tangent vector it stands for. The derivative by a coordinate of the submanifold (Mv.diff with the connection of the submanifold) is the derivative in the space, projected with project_in_blade into the blade of the tangent space. In a flat space this is the derivative of the coefficients; in curvilinear coordinates or a curved space it is the derivative along the tangent vector of any field that agrees with the given one on the submanifold. The gradient of a function on the submanifold is the projection of its gradient in the space.",
  "all submanifolds of any dimension with nondegenerate metric, of spaces of any dimension with any symmetric metric tensor, with and without normalised basis vectors, all multivector fields, all functions; in a space that is not flat the substitution of the coordinates is a homomorphism of a field of functions",
  "relates two algebras of different dimension through a parametrisation, for all fields",
  ["galgebra/ga.py:Sm.__init__", "galgebra/ga.py:Ga.sm", "galgebra/ga.py:Ga.pDiff", "galgebra/ga.py:Ga.build_connection", "galgebra/mv.py:Mv.project_in_blade", "galgebra/mv.py:Dop.Mul"])

p("C99", "Formulas with functions have the value and the type that one reads off them",
  "Nest the functions of the module mv (rev, dual, undual, even, odd, g_invol, ccon, inv, shirokov_inverse, hitzer_inverse, grade, scalar, qform, sp, proj, refl, cross, exp, rot, the norms and magnitudes), Ga.com and the operators in any way. Whether the result is a number or a multivector, and which type of exception is raised when a function is given a number instead of a multivector, can be read off the formula. If the formula is algebraic (no exp, rot, norms) and returns, the result is the value of the formula in the Clifford algebra; so identities of the algebra hold for formulas, and the three inverses agree. No exception is lost inside a formula, and mv.com always raises ImportError.",
  "all formulas of any depth, all dimensions and symmetric metric tensors, all eight dual modes, all values of the variables (numbers or multivectors in blade representation)",
  "formulas of unbounded depth over all values of their variables; the composition of functions with different result types and exceptions is not covered by tests of the single functions",
  ["galgebra/mv.py:rev", "galgebra/mv.py:dual", "galgebra/mv.py:undual", "galgebra/mv.py:even", "galgebra/mv.py:odd", "galgebra/mv.py:g_invol", "galgebra/mv.py:ccon", "galgebra/mv.py:inv", "galgebra/mv.py:scalar", "galgebra/mv.py:qform", "galgebra/mv.py:sp", "galgebra/mv.py:proj", "galgebra/mv.py:refl", "galgebra/mv.py:rot", "galgebra/mv.py:exp", "galgebra/mv.py:cross", "galgebra/mv.py:com", "galgebra/ga.py:Ga.com"])

p("C100", "correlation is Pearson's correlation coefficient",
  "mv.correlation(u, v) of two vectors is their correlation coefficient: it is between -1 and 1, symmetric, 1 for a vector with itself, unchanged under changes of unit and origin (up to the sign of the factor), and 1 or -1 exactly when one vector is a multiple of the other plus a constant.",
  "all pairs of real vectors of any length, in exact arithmetic (the code rounds the denominator to dec digits)",
  "universally quantified over vectors of any length; equality case of the Cauchy-Schwarz inequality",
  ["galgebra/mv.py:correlation"])

p("C101", "Linear transformations do not depend on the basis",
  "Take n independent vectors of an algebra as the basis of a new algebra, with their inner products as metric tensor. A transformation of the new algebra and one of the old algebra that agree on the basis vectors agree on every multivector; every transformation of the old algebra is the same as exactly one of the new algebra; sums, multiples, compositions, inverses and adjoints of the same transformations are the same, det(), is_singular() and (for constant coefficients) tr() return the same values, Lt(V) of a versor is the same, and each of them raises in both algebras or in none.",
  "all dimensions, all symmetric metric tensors (also singular ones), all bases, all linear transformations, multivectors and versors",
  "universally quantified over bases and transformations; adj, inv, det and tr compute with matrices, reciprocal frames and pseudoscalars of the given basis, so independence of the basis is not visible in any formula",
  ["galgebra/lt.py:Lt.__call__", "galgebra/lt.py:Lt.det", "galgebra/lt.py:Lt.adj", "galgebra/lt.py:Lt.inv", "galgebra/lt.py:Lt.is_singular", "galgebra/lt.py:Lt.tr", "galgebra/lt.py:Lt.__mul__", "galgebra/lt.py:Lt.__init__"])

p("C102", "GAeval reads back what is printed",
  "After def_prec(d, '<>|,^,*'), with the basis vectors and the symbols of the coefficients as variables of d, GAeval(str(A)) is A again, for multivectors whose coefficients are made of numbers and symbols.",
  "all dimensions, all symmetric metric tensors, all names of basis vectors, all multivectors with such coefficients, all histories of assignments and def_prec calls",
  "universally quantified over multivectors, names and histories; it composes the printer, the string rewriting of the parser, Python's precedence of operators and the arithmetic of multivectors",
  ["galgebra/printer.py:GAeval", "galgebra/_utils/parser.py:parse_line", "galgebra/mv.py:Mv._sympystr", "galgebra/printer.py:def_prec"])

p("C103", "Laws that relate the products",
  "For all multivectors: (A^B)<C = A<(B<C), A>(B^C) = (A>B)>C, (A<B)>C = A<(B>C); rev exchanges the operands of ^ and | and exchanges < and >; for a vector a, a*B = (a<B) + (a^B), B*a = (B>a) + (B^a), and a<(B*C) = (a<B)*C + B.g_invol()*(a<C), also with ^; (A*B).scalar() = (B*A).scalar() and ((A^B)*C).scalar() = (A*(B<C)).scalar(); the contraction of a blade on the reverse of a blade of the same grade is the determinant of the inner products of their vectors; dual() exchanges ^ with the contractions, in every dual mode.",
  "all dimensions, all symmetric metric tensors (degenerate and non-orthogonal included), all multivectors, all numbers of vectors, all dual modes",
  "laws over an infinite domain, which relate results of different code paths (product tables, grade selection, change of representation)",
  ["galgebra/mv.py:Mv.__lt__", "galgebra/mv.py:Mv.__gt__", "galgebra/mv.py:Mv.__or__", "galgebra/mv.py:Mv.__xor__", "galgebra/mv.py:Mv.dual", "galgebra/mv.py:Mv.rev", "galgebra/ga.py:Ga.left_contract", "galgebra/ga.py:Ga.right_contract"])

p("C104", "Multilinear functions with multivector values",
  "A multilinear function made from a Python function with multivector values gives, when called with vectors, the value of the function; F+G, F-G give the sum and difference of the values, and F*G, F^G, F|G give F(v_1..v_r) op G(v_{r+1}..v_{r+s}), a function of r+s arguments; F*X, F^X, F|X with a number or multivector X give F(v) op X. F.dd(), for a scalar valued F, is a multilinear function with one more argument w, and its value is the derivative of F in the direction w when the other arguments are constant.",
  "all orthogonal algebras (dd: all algebras), all multilinear functions, all vectors",
  "the claim is about every function and all vectors; the constructor branches on the value's grades",
  ["galgebra/lt.py:Mlt.__init__", "galgebra/lt.py:Mlt.__call__", "galgebra/lt.py:Mlt.__add__", "galgebra/lt.py:Mlt.__mul__", "galgebra/lt.py:Mlt.__xor__", "galgebra/lt.py:Mlt.__or__", "galgebra/lt.py:Mlt.dd"])

p("C105", "Derivatives of duals",
  "The derivative of the pseudoscalar Ga.i by a coordinate is zero, and F.dual().diff(x) == F.diff(x).dual(), although the coefficients of Ga.i depend on the coordinates; grad*F.dual() == (grad*F).dual(), grad<F.dual() == (grad^F).dual() and grad^F.dual() == (grad<F).dual(), up to the sign (-1)**(n-1) in the modes with the pseudoscalar as left factor; grad<((grad^F).dual()) == 0 and grad<(grad<F) == 0.",
  "all algebras with a metric tensor that may depend on the coordinates, normalised or not; all multivector fields, coordinates and dual modes",
  "the derivative of a field with symbolic metric uses the connection; the cancellation with the derivative of the norm of the pseudoscalar has to hold for every metric tensor, and tests fix a few coordinate systems and one mode",
  ["galgebra/ga.py:Ga.pDiff", "galgebra/ga.py:Ga.grads", "galgebra/ga.py:Ga.build_connection", "galgebra/mv.py:Mv.dual", "galgebra/mv.py:Dop.Mul"])

p("C106", "The class MV of the deprecated module",
  "After every history of calls of MV.setup and of other calls that make algebras, MV(...) makes a multivector of the algebra of the last MV.setup that returned (and raises if there is none); MV.I, MV.metric and MV.grad belong to this algebra; multivectors made before and after some calls can be combined exactly if no MV.setup returned in between. A metric given as the text of a list of integers is this list, other texts are passed on.",
  "all histories, including calls that raise before or after the algebra has got its name; all lists of integers, with any blanks",
  "ranges over all histories and all texts",
  ["galgebra/deprecated.py:MV.setup", "galgebra/deprecated.py:MV.convert_metric", "galgebra/deprecated.py:MV.__init__"])
p("C107", "is_versor and is_blade answer correctly",
  "V.is_versor() answers True exactly if V is a geometric product of vectors that are not null; then V.g_invol()*x == x'*V for all vectors x, where x' is x after a sequence of reflections. Products, reverses, inverses and non-zero multiples of versors are versors, and qform is multiplicative on them. B.is_blade() answers True exactly if B is a non-zero multiple of an exterior product of vectors.",
  "all multivectors in blade representation, all symmetric metrics, all dimensions",
  "ranges over all multivectors and metrics; the converse needs the theorem of Cartan and Dieudonne",
  ["galgebra/mv.py:Mv.is_versor", "galgebra/mv.py:Mv.is_blade"])
p("C108", "sp is a scalar product and, in Euclidean algebras, norm is its norm",
  "sp(A, B, 'rev') is symmetric and bilinear with quadratic form qform, multiplication by A is adjoint to multiplication by A.rev(), different grades are orthogonal, and Pythagoras' theorem and the parallelogram law hold. qform(v<A) + qform(v^A) == qform(v)*qform(A) for vectors v; multiplication by a versor multiplies qform by that of the versor; projection into a blade is an orthogonal projection of the whole algebra. In Euclidean algebras |sp(A, B, 'rev')| <= norm(A)*norm(B), with equality exactly for dependent A, B; norm is zero for zero only, is homogeneous and satisfies the triangle inequality; products v^A, v<A and projections are not longer than norm(v)*norm(A) and norm(A); norm(v1^...^vk) <= norm(v1)*...*norm(vk), with equality exactly if the vectors are orthogonal to each other or one is zero. sp(v1^...^vk, w1^...^wk, 'rev') is the determinant of the inner products vi|wj, qform(v1^...^vk) that of vi|vj, and L(v1^...^vn) is L.det()*(v1^...^vn) for as many vectors as dimensions.",
  "all multivectors in blade representation, all symmetric metrics of every dimension; the inequalities for all positive definite metrics, orthogonal basis or not",
  "ranges over all multivectors and metrics",
  ["galgebra/mv.py:Mv.sp", "galgebra/mv.py:Mv.qform", "galgebra/mv.py:Mv.norm", "galgebra/mv.py:Mv.project_in_blade"])
p("C109", "Products of expressions by name and mode",
  "Ga.Mul(A, B, mode) of two SymPy expressions in basis blades is their product with the operator mode, and Ga.dot(A, B) the inner product that dot_mode names; every other mode raises. The products of basis blades (of_basis_blades and the deprecated geometric_, wedge_, dot_ and non_orthogonal_dot_product_basis_blades) are the products of the blades.",
  "all dimensions, all symmetric metric tensors, all expressions in basis blades, all strings as modes",
  "universally quantified over metric tensors, expressions and strings",
  ["galgebra/ga.py:Ga.Mul", "galgebra/ga.py:Ga.dot", "galgebra/ga.py:Ga.dot_product_basis_blades", "galgebra/ga.py:Ga.non_orthogonal_dot_product_basis_blades", "galgebra/ga.py:Ga.geometric_product_basis_blades", "galgebra/ga.py:Ga.wedge_product_basis_blades"])
p("C110", "Blades stand for subspaces",
  "v1^...^vk is zero exactly if the vectors are linearly dependent, and otherwise v^B == 0 holds for B = v1^...^vk exactly for the vectors v in their span: B stands for the subspace. Every subspace has such a B, unique up to a factor, whose grade is the dimension; one subspace contains another one exactly if its blade is B^C. v<B == 0 holds exactly for the vectors orthogonal to the subspace. B^B' is zero exactly if the subspaces have a common vector, and otherwise stands for their sum; B<B' and B'>B are zero exactly if a vector of the subspace of B is orthogonal to that of B', and otherwise stand for the vectors of the subspace of B' that are orthogonal to that of B; B.dual() and B.undual() stand for the orthogonal complement; (B.dual()^B'.dual()).undual() is zero exactly if the subspaces do not span the whole space, and otherwise stands for their intersection; L(B) is zero exactly if L is not injective on the subspace, and otherwise stands for the image. qform(B) is not zero exactly if no vector of the subspace is orthogonal to it, and then project_in_blade gives the vector of the subspace whose difference is orthogonal to it. A multivector of grade k is a blade exactly if v^B == 0 for a subspace of dimension k.",
  "all dimensions, all symmetric metric tensors (not degenerate for duals), all vectors, blades, subspaces, linear transformations and dual modes",
  "ranges over all families of vectors and all subspaces of every dimension",
  ["galgebra/mv.py:Mv.__xor__", "galgebra/mv.py:Mv.__lt__", "galgebra/mv.py:Mv.__gt__", "galgebra/mv.py:Mv.dual", "galgebra/mv.py:Mv.undual", "galgebra/mv.py:Mv.qform", "galgebra/mv.py:Mv.project_in_blade", "galgebra/lt.py:Lt.__call__"])
p("C111", "Versors and isometries",
  "ga.lt(V) is for a vector V that is not null the reflection in the hyperplane orthogonal to V. If the metric is not degenerate, every linear transformation that preserves the inner products is ga.lt(V) for a product V of k vectors that are not null, and has the determinant (-1)**k; one with determinant 1 is V*A*V.inv() for an even V. V is unique up to a factor. For versors V, W: ga.lt(V*W) is the composition of ga.lt(V) and ga.lt(W); ga.lt(V) preserves inner products; its determinant is 1 exactly for even and -1 exactly for odd V. A linear transformation preserves inner products exactly if its adjoint is its inverse. If B stands for a subspace, then V*B*V.inv() stands for its image.",
  "all dimensions, all symmetric metric tensors (not degenerate where stated), all versors and linear transformations",
  "ranges over all linear transformations and metrics of every dimension; the existence of V is the theorem of Cartan and Dieudonne",
  ["galgebra/lt.py:Lt.__init__", "galgebra/lt.py:Lt.det", "galgebra/lt.py:Lt.adj", "galgebra/lt.py:Lt.inv", "galgebra/mv.py:Mv.is_versor", "galgebra/mv.py:Mv.inv", "galgebra/mv.py:Mv.g_invol"])
p("C112", "Powers and functions in LaTeX",
  "The LaTeX text of a power is a formula that TeX accepts and that shows the power of the whole base: a superscript on a part that holds all of the base, a root, or one over such a power. The text of a function shows its name and, in parentheses with commas between them, its arguments; with omit_function_args it shows the name alone; inverse trigonometric functions are shown in the style that inv_trig_style names.",
  "all settings of the printer, all rational and other exponents, all bases, functions and arguments whose own texts are formulas",
  "ranges over all texts of bases and arguments and all rational exponents; a wrong place of an exponent gives a correct looking formula with another meaning",
  ["galgebra/printer.py:GaLatexPrinter._print_Pow", "galgebra/printer.py:GaLatexPrinter._print_Function"])
p("C113", "Making differential operators",
  "Pdop(x) is the derivative by x, Pdop({x: m, y: n, ...}) the derivatives one after another, Pdop({}) the identity; Sdop(x), Sdop([(c, p), ...]) and Sdop([c, ...], [p, ...]) are the derivative by x and the sum of the c*p; other arguments raise TypeError, and lists of different lengths ValueError. The attribute order is the sum of the orders of the derivatives, and D.diff(x, n) has the order of D plus n. An operator stays the same whatever the program does afterwards.",
  "all arguments, all histories of making and differentiating operators, making dictionaries and assigning to them, all functions that are differentiated",
  "ranges over all histories with shared dictionaries",
  ["galgebra/dop.py:Pdop.__init__", "galgebra/dop.py:Sdop.__init__", "galgebra/dop.py:Pdop.__call__", "galgebra/dop.py:Sdop.__call__", "galgebra/dop.py:Pdop._eval_derivative_n_times"])
p("C114", "Operators whose coefficients are expressions, and their simplification",
  "A calculation with scalar differential operators (sums, differences, products, multiples, derivatives, consolidation, simplify, TSimplify, in any order and nesting) gives an operator that acts as the calculation means, also if the library does not see that a coefficient is zero, as long as the simplification keeps the values of expressions. Operators that == finds equal act the same. simplify and TSimplify of a multivector operator change the form of its coefficients only.",
  "all calculations, all rings of expressions and of their values with derivatives that belong together, all simplifications that keep values, all functions the operators act on",
  "ranges over all calculations and all simplifications",
  ["galgebra/dop.py:Sdop.simplify", "galgebra/dop.py:Sdop.TSimplify", "galgebra/dop.py:Sdop.consolidate_coefs", "galgebra/dop.py:Sdop.__eq__", "galgebra/mv.py:Dop.simplify", "galgebra/mv.py:Dop.TSimplify", "galgebra/metric.py:Simp.apply"])
p("C115", "Derivatives and differential operators in LaTeX, as TeX reads them",
  "TeX reads the LaTeX text of a derivative as one fraction with the sign and the order above and the variables below, neighbouring equal ones together with how often they occur, followed by the function, in parentheses if it is a sum or a product; without fractions, as a row of signs with the variables below and the orders above. The text of a differential operator is read as the sum of its terms in their order, each with its coefficient, in parentheses if it is a sum, and its fraction.",
  "all derivatives, operators, coefficients and variables, whatever the printer gives for them",
  "ranges over all operators and texts",
  ["galgebra/printer.py:GaLatexPrinter._print_Derivative", "galgebra/dop.py:Pdop._latex", "galgebra/dop.py:Sdop._latex"])
p("C116", "Division, integer powers and inverses by different functions",
  "Whatever A.inv(), A.hitzer_inverse(), A.shirokov_inverse(), A**-1 and 1/A give is the same multivector, and an inverse of A; inverses of products and of reverses are the products and reverses of the inverses. A.inv() returns exactly if A has an inverse and A, A*A or A*A.rev() is a scalar, and then all integer powers are defined. A**(j+k) == A**j * A**k and A**(j*k) == (A**j)**k for all integers for which the powers are defined. x/y is the only solution z of z*y == x.",
  "all symmetric metrics, dimensions, multivectors and integer exponents (exact arithmetic)",
  "ranges over all multivectors, metrics and exponents",
  ["galgebra/mv.py:Mv.inv", "galgebra/mv.py:Mv.__pow__", "galgebra/mv.py:Mv.__truediv__", "galgebra/mv.py:Mv.__rtruediv__", "galgebra/mv.py:Mv.hitzer_inverse", "galgebra/mv.py:Mv.shirokov_inverse"])
p("C117", "The equations that printrref prints",
  "printrref(M, vars) prints one line for every row of M; read as linear equations in the variables, the lines have exactly the solutions of the system whose augmented matrix is M. With too few variables it prints 'Not enough variables.'.",
  "all matrices, all names of variables",
  "ranges over all matrices and solutions",
  ["galgebra/mv.py:printrref"])
p("C118", "The components that Mlt.comps lists",
  "T.comps() returns one line for every choice of basis vectors as arguments of the multilinear function T, in lexicographic order, with the number of the line, the indices and the component, that is the value of T at these basis vectors; two functions of the same number of arguments with the same text are the same function.",
  "all multilinear functions a program can make, all numbers of arguments, dimensions and metrics",
  "ranges over all multilinear functions and numbers of arguments",
  ["galgebra/lt.py:Mlt.comps", "galgebra/lt.py:Mlt.__call__"])
p("C119", "Ga.preset and other functions that use names",
  "Ga.preset(name) returns for every name in Ga.presets an algebra with the coordinates of that entry, and raises ValueError for every other name; ga.grad_sqr, A.Grad and Simp.applymv return for all arguments they are made for.",
  "all arguments",
  "ranges over all arguments; the functions fail for every one of them",
  ["galgebra/ga.py:Ga.preset", "galgebra/ga.py:Ga.grad_sqr", "galgebra/mv.py:Mv.Grad", "galgebra/metric.py:Simp.applymv"])
p("C120", "The vectors that printGS and printeigen print",
  "printGS(M, norm) prints the vectors of GramSchmidt(M, norm) in order in one line, [ [a, b] [c, d] ], and raises for vectors without components; the line determines the texts of the components if these have no commas and brackets. printeigen(M) prints for each eigenvalue one line with the eigenvalue and its multiplicity, as a Python tuple, and one line [a, b] for each of its eigenvectors, in the order of M.eigenvects().",
  "all lists of vectors, of every length, all lists of eigenvalues with eigenvectors, all texts of components",
  "ranges over lists and texts of every length",
  ["galgebra/mv.py:printGS", "galgebra/mv.py:printeigen"])
p("C121", "Eigenvalues, determinants and the characteristic polynomial of a transformation",
  "L(v) == c*v has a solution v != 0 exactly if (L - c*Id).det() is zero. On the outer product of eigenvectors L is multiplication by the product of the eigenvalues, and this product is L.det() if the eigenvectors are independent and as many as dimensions. Eigenvectors of L and of L.adj() with different eigenvalues are orthogonal. L.adj().det() == L.det(), L.inv().det()*L.det() == 1, (c*L).det() == c**n*L.det(). (t*Id - L).det() is a monic polynomial of degree n in t, and L put into it is zero (Cayley and Hamilton).",
  "all dimensions, all symmetric metric tensors that are not degenerate, all transformations, vectors and scalars (Cayley and Hamilton: infinite fields)",
  "universally quantified over dimensions, metrics and transformations; it composes sums, products, inverses, adjoints and determinants",
  ["galgebra/lt.py:Lt.det", "galgebra/lt.py:Lt.adj", "galgebra/lt.py:Lt.inv", "galgebra/lt.py:Lt.__call__", "galgebra/lt.py:Lt.__mul__"])

p("C122", "The two orders of taking second derivatives differ by a curvature tensor",
  "For a multivector field A of an algebra with coordinates, let R_ij(A) be A.diff(x_j).diff(x_i) - A.diff(x_i).diff(x_j). R_ij is linear over scalar fields (R_ij(f*A + B) == f*R_ij(A) + R_ij(B)) and zero on scalar fields, obeys the product rule for *, ^, |, < and >, keeps grades, changes sign if i and j are exchanged, and is skew on vectors (R_ij(a)|b == -(a|R_ij(b))). For the tangent vectors t_k of the coordinates, R_ij(t_k) + R_jk(t_i) + R_ki(t_j) == 0 and R_ij(t_k)|t_l == R_kl(t_i)|t_j. The cyclic sum over i, j, k of R_jk(A).diff(x_i) - R_jk(A.diff(x_i)) is zero. If the basis is not normalised, R_ij(e_k) has the components that the usual formula gives from Christoffel_symbols(mode=2). With the bivector B_ij, one half of the sum of R_ij(t_k)^u_k over the gradient vectors u_k of the coordinates, R_ij(A) == B_ij >> A for every multivector field A. B_jk.diff(x_i) + B_ki.diff(x_j) + B_ij.diff(x_k) == 0. The derivatives by x_i and x_j commute on all fields exactly if they commute on vector fields, and exactly if B_ij == 0. R_ij is not zero for every metric. For multiples of the pseudoscalar E() the order of the derivatives never matters, and R_ij(A*E()) == R_ij(A)*E() and R_ij(E()*A) == E()*R_ij(A). With two coordinates there is a scalar field k with R_01(A) == k*(E() >> A) and R_10(A) == -k*(E() >> A) for every A.",
  "all numbers of coordinates, metric tensors for which the algebra can be constructed, normalised or not, coordinates i, j, k, l, scalar fields and multivector fields",
  "The identities relate second derivatives of the metric tensor for arbitrary functions in it; tests check flat or textbook metrics only.",
  ["galgebra/mv.py:Mv.diff", "galgebra/ga.py:Ga.pDiff", "galgebra/metric.py:Metric.de", "galgebra/metric.py:Metric.Christoffel_symbols"])

os.chdir(os.path.join(os.path.dirname(os.path.abspath(__file__)), '..'))
with open('properties.jsonl', 'w') as f:
    for q in P:
        f.write(json.dumps(q) + '\n')
print(len(P))
