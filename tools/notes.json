{
 "C01": {
  "note": "all n; index tuples, blades, bijections and grade map"
 },
 "C55": {
  "note": "all index lists; sign stated with Mathlib's Equiv.Perm.sign"
 },
 "C19": {
  "status": "partial",
  "note": "Proved for constructors that return or fail validation before their dual mode is set. C19_failed_constructor_counterexample: a constructor that raises after setting the mode has already changed it, so the full claim is false of the code."
 },
 "C47": {
  "status": "partial",
  "note": "Cl(p,q,r) of interop/_cl.py is fully proved. For kingdon.Cl the claim is proved for p+q+r != 1; C47_kingdon_counterexample shows it is false for p+q+r = 1, and C47_numbering_counterexample shows that Cl(1) numbers its vector from 0."
 },
 "C52": {
  "status": "partial",
  "note": "Proved: when compare returns c != 0 then A = c*B, and it is complete for proportional operands. C52_documented_counterexample: the docstring promises B = c*A, which is false of the code."
 },
 "C33": {
  "status": "partial",
  "note": "Proved for every input form except multivectors held in base (geometric product) representation over non-orthogonal metrics. C33_base_rep_counterexample: there the code reads the wrong coefficients, so the full claim is false."
 },
 "C38": {
  "status": "partial",
  "note": "is_singular and inverse are proved in full. The trace is proved for transformations with constant entries over an un-normalised basis (C38_trace_partial, C38_trace_mul_comm_partial). The full claim is false: C38_trace_norm_counterexample (norm=True gives sum M_kk/N_k) and C38_trace_coordinates_counterexample (coordinate dependent entries are differentiated)."
 },
 "C39": {
  "status": "partial",
  "note": "The claim is false of the code. Proved: application and composition read missing images as 0 (C39_application_partial, C39_composition_partial) and matrix() raises (C39_matrix_raises). Counterexamples: display shows e_i for a missing image, + and * treat it inconsistently."
 },
 "C44": {
  "status": "partial",
  "note": "Fully proved for algebras without norm=True (also: the derivatives of the basis vectors have these components). With norm=True symmetry and lowering with Ga.g still hold, but C44_normalized_counterexample: the returned second kind symbols belong neither to the given basis nor to the normalised one. Christoffel_symbols of objects of class Metric: the same (C44_metric_partial), but mode=2 raises an exception for orthogonal metrics (C44_metric_counterexample)."
 },
 "C40": {
  "status": "partial",
  "note": "Actions of consolidation, sums, differences, negation and scalar multiples, distinctness of derivatives and equality are proved. 'No zero terms' holds for results of + and - but not for consolidate_coefs itself (C40_consolidate_zero_counterexample), and Pdop({x:0}) differs from Pdop({}) (C40_order_zero_counterexample)."
 },
 "C42": {
  "status": "partial",
  "note": "Fully proved for every operator when derivatives of fields commute (all constant metrics, C42_commuting_of_constant; flat curvilinear coordinates, C42_commuting_of_basis), and for scalar fields in every space, flat or curved (C42_mul_scalar, C42_mul_scalar_left). Fails for other fields in curved spaces: C42_curved_counterexample."
 },
 "C50": {
  "status": "partial",
  "note": "Proved for every history of questions (C50_questions_partial, C50_repeat_partial); set_coef writes the right coefficient after any history (C50_set_coef_value) and the questions that are not cached are right after every history (C50_direct_tests). The claim is false with updates: C50_set_coef_counterexample."
 },
 "C61": {
  "status": "partial",
  "note": "Single grade and zero are proved in full. For mixed grades the answer is minus a grade that occurs (C61_mixed_partial) but not the largest one: C61_mixed_counterexample."
 },
 "C45": {
  "status": "partial",
  "note": "Pull-back, symmetry and positivity are proved for every map given as a list of functions, where the base metric is taken after SymPy's sequential substitution. That this is the base metric at the image point is proved for polynomial maps whose functions do not contain the base coordinates (C45_point_partial); otherwise it is false (C45_shared_coordinates_counterexample). A map given as a vector always raises (C45_vector_map_counterexample). Submanifolds of submanifolds are proved for polynomial maps that share no coordinates (C45_chain)."
 },
 "C51": {
  "status": "partial",
  "note": "The claim is false: C51_repeat_counterexample shows that every repeated call of connection raises UnboundLocalError. Proved: the value of the first call of each key after every history (C51_first_call_partial, C51_value) and that blade_derivation is repeatable in every history (C51_blade_derivation)."
 },
 "C48": {
  "status": "partial",
  "note": "Proved: the exact terms and names (C48_terms), an exact criterion for distinct names (C48_distinct_iff), distinctness and genericity for prefix-free super scripts (C48_distinct_partial, C48_generic), which covers different coordinate names of equal length and up to nine numbered basis vectors. False in general: C48_collision_counterexample, C48_twelve_counterexample."
 },
 "C56": {
  "note": "SymPy's Rational is a parameter. Also proved: asymmetric strings are accepted, dimension zero without a metric raises, and the special general metric g='g' is not symmetric (C56_general_metric_counterexample)."
 },
 "C49": {
  "status": "partial",
  "note": "Proved for every string, operator order and history: a returned string differs only in parentheses and blanks (C49_only_parentheses_partial). For every well-formed expression with any nesting of parentheses and any operator order the right parentheses are inserted (C49_precedence_partial), so that Python reads the result as the operator order reads the input (C49_meaning_partial), if no part occurs twice, inner products are not chained and no expression or sum in parentheses both begins and ends with a product. Outside these restrictions the claim is false of the code: C49_raises_counterexample, C49_value_counterexample, C49_chain_meaning_counterexample, C49_repeat_counterexample. Expressions that begin with a minus sign are rewritten like those that do not (C49_minus_partial, C49_zero_minus). Missing: expressions with repeated parts that are nevertheless rewritten correctly, and a minus sign after an operator or an opening parenthesis."
 },
 "C25": {
  "status": "partial",
  "note": "Proved in full for every n >= 1, every symmetric metric (degenerate and non-orthogonal included) and every multivector in blade representation, in exact arithmetic over a field of characteristic 0: what is returned is a two-sided inverse, and ValueError is raised exactly when there is none. The unrestricted claim is false of the code: C25_dimension_zero_counterexample (n = 0 raises UnboundLocalError) and C25_base_representation_counterexample (a base-representation multivector is given a wrong inverse)."
 },
 "C63": {
  "status": "partial",
  "note": "Proved for scalar valued functions in orthogonal algebras, and for generic functions when no function with more arguments was made before. The full claim is false: C63_nonorthogonal_counterexample (calls multiply every argument by E^2 in other algebras; C63_call_factor gives the exact value) and C63_generic_counterexample, C63_generic_call_counterexample (Mlt('T', 1) after a function of two arguments)."
 },
 "C64": {
  "status": "partial",
  "note": "Proved: cderiv satisfies the product rule for all vector fields, in orthogonal algebras with every connection, and is zero for the metric tensor; every function made with the constructors is a tensor field; derivatives of multivectors are unchanged by histories without pdiff and contract. The rest of the claim is false: C64_nonorthogonal_counterexample (basis vectors that are not orthogonal; C64_cderiv_factor gives the exact value), C64_pdiff_counterexample and C64_contract_counterexample (both are 0 for constant components because the code differentiates by the coordinates), C64_history_counterexample (afterwards all derivatives ignore the connection)."
 },
 "C65": {
  "status": "partial",
  "note": "Proved in full for multivectors in blade representation and for orthogonal algebras; simplify and collect preserve the value in every representation. False for base representation in non-orthogonal algebras: C65_base_rep_counterexample."
 },
 "C66": {
  "status": "partial",
  "note": "Proved for pairs in blade representation (C66_hash_partial) and for scalars (C66_scalar). False between representations: C66_base_rep_counterexample."
 },
 "C67": {
  "status": "partial",
  "note": "Derivatives by coordinates are proved for algebras without connection (C67_coordinate_partial); with connection diff and pdiff always raise, because the SymPy expression and not the multivector is passed to Ga.pDiff (C67_connection_counterexample). The claim for parameters is false: C67_parameter_counterexample, the chain rule is never applied; C67_parameter_partial gives what is computed instead."
 },
 "C68": {
  "status": "partial",
  "note": "signature() is proved for orthogonal non-degenerate numeric metrics (C68_nondegenerate), and e_sq_sgn follows whenever q is right (C68_sign). Otherwise false: orthogonal metrics never get a signature at construction (C68_orthogonal_not_computed), zero squares are counted as negative (C68_degenerate_counterexample), hints are not checked (C68_hint_counterexample, C68_negative_hint_counterexample)."
 },
 "C69": {
  "status": "proved",
  "note": "Square roots and square-free factorisations of SymPy are parameters with stated laws (RootFuns.Laws), satisfied by the reals. The lengths can be negative, against the comment in the code: C69_length_sign_counterexample. Zero squares, which divide by zero, are excluded."
 },
 "C70": {
  "status": "partial",
  "note": "Proved in full for constant metrics. False with a connection, where the derivative by a symbol that is not a coordinate raises: C70_connection_counterexample."
 },
 "C71": {
  "status": "partial",
  "note": "Proved in full for operators on the right. False for operators on the left: the components lose the complement flag, C71_left_counterexample. C71_of_sdops and C71_of_sdops_left cover both sides."
 },
 "C72": {
  "status": "partial",
  "note": "Everything about Symbolic_Matrix and the string constructor is proved, for general matrices under the hypothesis that coordinate names are distinct and have no '}' (C72_brace_counterexample). The property mode gives the mode back only in Euclidean algebras (C72_mode_partial, C72_mode_counterexample)."
 },
 "C73": {
  "status": "partial",
  "note": "Proved in full for blade representation, and in base representation for all operators but A < c and c > A, where the code is wrong: C73_base_rep_counterexample."
 },
 "C74": {
  "status": "proved",
  "note": "The text of a single term, which SymPy makes, is a parameter: any non-empty text without line breaks that negates by a leading minus sign. In formats 2 and 3 a text of one symbol has a leading blank exactly if the term was split, so C74_same is for format 1; C74_text is for all formats."
 },
 "C75": {
  "status": "partial",
  "note": "Texts with wedges are proved different for all names. Without wedges, and for bases_dict, proved for subscripts none of which begins another one (such as e_1 ... e_9); false otherwise: with twelve vectors e_1^e_2 and e_12 are both e_12, and for e_x, e_y, e_z bases_dict has the pseudoscalar only."
 },
 "C76": {
  "status": "partial",
  "note": "Proved for programs with one document made with Format and tex, with any prints and further calls of Format before, between and after (C76_capture_partial, C76_hidden). Otherwise false, with exact descriptions for all histories of the kind: a second tex after Format always raises (C76_second_tex_raises), documents made with LatexFormat begin with the text of the document before (C76_repeated_text), LatexFormat twice loses text and terminal (C76_nested_counterexample)."
 },
 "C77": {
  "status": "partial",
  "note": "Proved for every captured text: lines are independent (C77_each_line), listings are verbatim except for empty lines, which are lost (C77_verbatim, C77_empty_lines_counterexample), and the form of each kind of line. False for an align* environment with an equation in it: its own beginning is translated (C77_align_counterexample)."
 },
 "C78": {
  "status": "partial",
  "note": "Proved for lists of rows and lists of squares in full (C78_construct, C78_lists), and for matrices that the program neither assigns to nor uses again with norm=True (C78_matrix_partial, C78_argument_partial). False otherwise: norm=True writes the normalised metric into the caller's matrix (C78_norm_counterexample), so the same call again gives an algebra without connection (C78_again_counterexample); an assignment to the matrix changes the metric of the algebra and nothing else of it (C78_assign_counterexample); an immutable matrix is taken for the list of its first entries (C78_immutable_counterexample)."
 },
 "C79": {
  "status": "partial",
  "note": "Proved: the plain texts of Pdop, Sdop and Dop and the LaTeX texts of Pdop and Sdop (C79_partial_text, C79_scalar_text, C79_scalar_latex, C79_text), injectivity for partial derivatives without entries of order zero (C79_partial_injective), equal LaTeX texts of equal scalar operators (C79_latex_canonical), the LaTeX text of a Dop except where a scalar operator is 1 (C79_latex_partial). False: a blade with operator 1 is written twice in LaTeX (C79_latex_counterexample); equal scalar operators have different plain texts (C79_canonical_counterexample); an entry of order zero is written like one of order one (C79_order_zero_counterexample)."
 },
 "C81": {
  "status": "partial",
  "note": "The settings of every text are proved for all programs. The claim about colours is false of the code (C81_colour_counterexample: SymPy ignores settings that are None), the documented call A.Fmt('2', 'A') has no effect (C81_string_format_counterexample), and GaLatexPrinter.latex of a list does not use the settings of the call (C81_latex_list_counterexample; the rest of it is C81_latex_list_partial)."
 },
 "C83": {
  "status": "partial",
  "note": "False of the code for names without underscore: the reciprocal symbols are then the basis vectors themselves, and the substitution of the reciprocal vectors, made one after another, replaces basis vectors in its own results (C83_plain_names_counterexample, not orthogonal; C83_norm_counterexample, norm=True with a negative square). Proved for all names with an underscore and without a double one, and for all names without a double underscore if the basis is orthogonal and not normalised or has positive squares."
 },
 "C84": {
  "status": "partial",
  "note": "False of the code in four cases: the function zero raises an exception (C84_zero_counterexample), an expression that is a single product is printed without the symbols of its arguments (C84_product_counterexample), a coefficient that ends in a control word runs into the next symbol (C84_control_word_counterexample), and lines have a trailing line break when lcnt divides the number of terms and is neither 1 nor that number (stated in tokensFrom). Proved for all expressions that are sums and all coefficients that do not end in a control word."
 },
 "C86": {
  "status": "partial",
  "note": "False of the code for the last two statements: == with a number compares without simplification (C86_scalar_counterexample), and the hash is taken of the unsimplified expression (C86_hash_counterexample). The rest is proved for all inputs; that == needs a good simplification is C86_incomplete_counterexample."
 },
 "C87": {
  "status": "partial",
  "note": "False of the code in three cases: a negative grade -j is taken as the grade n+1-j (C87_negative_grade), the value of a scalar is accepted with any keyword (C87_scalar_keyword_counterexample), and several names with an integer grade raise TypeError (C87_several_grade_counterexample). The rest is proved for all arguments."
 },
 "C89": {
  "status": "partial",
  "note": "False of the code for names with ten or more glyphs (C89_ten_glyphs_counterexample), for control words that contain the name of a glyph, such as \\\\varphi and \\\\Theta (C89_control_word_counterexample), for capital Greek letters whose end is a glyph, such as Theta (C89_capital_counterexample: the text still spells the name, but with the wrong letter), and for the plain text of a derivative of a sum, which has no parentheses (C89_plain_counterexample). Proved for all names without question mark and backslash with at most nine glyphs, for names with one control word, and for all derivatives in LaTeX."
 },
 "C91": {
  "status": "partial",
  "note": "Proved for all arguments and histories if percent signs in strings are written twice. False of the code for a single percent sign (C91_percent_counterexample), for two backslashes when LaTeX is off (C91_plain_counterexample), for the sign @ in a notebook (C91_notebook_counterexample), for file names with .tex or .py in a directory name (C91_names_counterexample), and if the file cannot be opened, which loses everything printed (C91_failed_write_counterexample)."
 },
 "C92": {
  "status": "partial",
  "note": "Proved for rows of at least one and columns of at least two elements and for oprint. False of the code for empty lists in format 1 (C92_empty_counterexample), for empty lists and lists of one element in the other format, which are never closed (C92_one_counterexample), for dictionaries in the other format, whose values are not printed (C92_dict_counterexample), and for a title without object at the end of oprint (C92_last_title_counterexample)."
 },
 "C93": {
  "status": "partial",
  "note": "Proved for +, -, * and ^ and for numbers in * ^ |. False of the code for c < D and c > D with a number c, which apply D to c (C93_contraction_counterexample), and for an Sdop times an operator that acts to the left, which is a multivector instead of an exception (C93_sides_counterexample)."
 },
 "C94": {
  "status": "partial",
  "note": "The value is proved for the expressions of C49_precedence_partial (C49 has counterexamples for others), with or without a minus sign in front, in which ^, |, < and > are not used between two numbers; GAeval('2^3') is 1 (C94_integers_counterexample). The other theorems have no restriction."
 },
 "C100": {
  "status": "partial",
  "note": "Proved for column vectors. False of the code for row vectors, whose first entry only is centred (C100_row_counterexample)."
 },
 "C102": {
  "status": "partial",
  "note": "Proved for coefficients that are positive integers, symbols, products of these and sums in parentheses, with a sign. False of the code for multivectors of more than one term whose text begins with a blade of two or more vectors with coefficient 1 and ends with a product (C102_raises_counterexample), for sums in parentheses that begin and end with a product (C102_wrong_counterexample: a wrong value without an exception), for powers (C102_power_counterexample) and for decimal fractions (C102_float_counterexample). Missing: coefficients with quotients, functions or a minus sign after a parenthesis, and the same parenthesised sum in two coefficients."
 },
 "C104": {
  "status": "partial",
  "note": "False of the code when the sum or product is always a vector (C104_sum_counterexample), for factors that are not multilinear functions (C104_operand_counterexample: F*X, F^X and F|X are X*F), and for ^ and | of scalar valued functions, which raise (C104_product_error). Calls in non-orthogonal algebras: see C63."
 },
 "C106": {
  "status": "partial",
  "note": "Proved for multivectors, MV.I, MV.metric, mixing and the returned gradient. False of the code for MV.grad, which stays that of an earlier algebra when setup is called without coordinates (C106_grad_counterexample; C106_grad_partial says to which algebra it belongs), for metric='' and '[]', which raise (C106_metric_counterexample), and for a metric given together with the second element of curv, which is dropped (C106_curv_counterexample)."
 },
 "C107": {
  "status": "partial",
  "note": "is_versor: True for all products of non-null vectors in every metric (C107_versor_complete), and only for those if the metric is not degenerate (C107_versor_sound_partial, C107_reflections); false of the code for degenerate metrics (C107_versor_counterexample). The multivectors that pass form a group in every metric (C107_versor_mul, C107_versor_rev, C107_versor_inv, C107_versor_qform). is_blade: True for all non-zero blades (C107_blade_complete); right for grades up to 2 and from n-1 on, and for versors, in every metric, so always right up to dimension 4 (C107_blade_sound_partial, C107_blade_iff_partial); false of the code for every other grade and every metric (C107_blade_counterexample)."
 },
 "C109": {
  "status": "partial",
  "note": "Ga.Mul, Ga.dot and the products of basis blades are proved for all algebras and modes. The deprecated dot_product_basis_blades is proved for orthogonal algebras; for others it is false of the code (C109_not_orthogonal_counterexample). non_orthogonal_dot_product_basis_blades is proved for algebras that are not orthogonal; in orthogonal ones it raises for products that the grades do not make zero (C109_non_ortho_raises)."
 },
 "C112": {
  "status": "partial",
  "note": "Proved for bases that are functions, get brackets, have an index or are printed as one part, and for names without percent sign that are no commands of TeX with arguments. Otherwise false of the code: C112_name_counterexample (names of several letters), C112_cdot_counterexample, C112_fold_counterexample, C112_percent_counterexample, C112_frac_counterexample."
 },
 "C113": {
  "status": "partial",
  "note": "The constructors are proved for all arguments. Stability is proved for all histories that do not assign to the dictionary an operator was made from; otherwise it is false of the code (C113_alias_counterexample)."
 },
 "C114": {
  "status": "partial",
  "note": "Proved for scalar operators and for Dop.simplify. False of Dop.TSimplify, which raises for every operator with a term (C114_tsimplify_counterexample). == confirms only equal operators (C114_eq_sound) but does not find all (C114_eq_counterexample)."
 },
 "C115": {
  "status": "partial",
  "note": "Proved for derivatives, and for operators whose variables are printed as one part, without superscript if they occur more than once. False of other variables (C115_superscript_counterexample). Multivector operators: their text is in C79."
 },
 "C117": {
  "status": "partial",
  "note": "Proved for matrices with at least two columns and entries whose text has no blanks, like numbers. False for sums (C117_sum_counterexample) and for one column (C117_column_counterexample). That SymPy's rref comes from the matrix by row operations is a hypothesis."
 },
 "C118": {
  "status": "partial",
  "note": "The lines, their order and that they hold the values of calls are proved for all functions with arguments in all algebras (C118_lines). That these are the components, and that they determine the function, is proved for orthogonal algebras; false otherwise (C118_nonorthogonal_counterexample). Functions without arguments raise (C118_scalar_counterexample)."
 },
 "C119": {
  "status": "partial",
  "note": "ValueError for unknown names is proved. The rest of the claim is false of the code: Ga.preset raises for every argument (C119_preset_counterexample), and so do Ga.grad_sqr, Mv.Grad and Simp.applymv (C119_grad_sqr_counterexample). C119_needs says which names are missing."
 },
 "C22": {
  "status": "partial",
  "note": "Fully proved for Ga.g_inv. For objects of class Metric (C22_metric_partial, C22_metric_gsym) proved if the metric is not orthogonal; for orthogonal ones the code raises an exception (C22_metric_counterexample)."
 }
}